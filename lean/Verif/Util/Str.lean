import Verif.Base.Res
import Mathlib.Data.List.Basic
import Mathlib.Data.List.DropRight
import Mathlib.Tactic.Linarith
import Mathlib.Tactic.IntervalCases

/-!
# String helpers (C49)

levels/cxxsupport/string_utils.cc:46-325.  A `std::string` is a list of characters.
-/

namespace Verif.Str

open Verif Res

/-- `" \t"`, string_utils.cc:48. -/
def blank (c : Char) : Bool := c = ' ' || c = '\t'

/-- `trim`, string_utils.cc:46-52: `find_first_not_of`, `find_last_not_of`, `substr(p1,p2-p1+1)`. -/
def trim (s : List Char) : List Char :=
  match s.findIdx? (fun c => !blank c), s.reverse.findIdx? (fun c => !blank c) with
  | some p1, some r => let p2 := s.length - 1 - r; (s.drop p1).take (p2 - p1 + 1)
  | _, _ => []

/-- Decimal digits of a number, as printed by `operator<<`. -/
def dec (n : ℕ) : List Char := if n < 10 then [Nat.digitChar n] else dec (n / 10) ++ [Nat.digitChar (n % 10)]

/-- `setw(w) << setfill('0')` -/
def pad (w : ℕ) (s : List Char) : List Char := List.replicate (w - s.length) '0' ++ s

/-- `intToString`, string_utils.cc:95-103; `x` is an `int64`.  Negating the smallest one is undefined.  Simplification: widths
beyond the range of `int` (truncated by `setw`) are not modelled; `width-1` for width 0 wraps around and `setw` of the resulting
negative number pads nothing, like `pad 0`. -/
def intToString (x : ℤ) (w : ℕ) : Res (List Char) :=
  if x = -2 ^ 63 then ub "-x overflows" else
  let res := if 0 ≤ x then pad w (dec x.toNat) else '-' :: pad (w - 1) (dec (-x).toNat)
  if res.length = w then ok (trim res) else throw "number too large"

/-- White space skipped by `operator>>`. -/
def space (c : Char) : Bool := c = ' ' || c = '\t' || c = '\n' || c = '\r' || c = '\x0b' || c = '\x0c'

/-- decimal digit -/
def digit (c : Char) : Bool := '0' ≤ c && c ≤ '9'

/-- Value of a string of digits. -/
def val (ds : List Char) : ℕ := ds.foldl (fun v c => 10 * v + (c.toNat - 48)) 0

/-- Optional sign read by `operator>>`. -/
def sign : List Char → Bool × List Char
  | '-' :: t => (true, t)
  | '+' :: t => (false, t)
  | t => (false, t)

/-- `stringToData<T>` for a signed integer type with range `[lo,hi]`, string_utils.cc:107-124: `strstrm >> value` skips white
space, reads an optional sign and digits and fails if there are none or the value is out of range; then nothing but white space may
follow. -/
def stringToInt (lo hi : ℤ) (s : List Char) : Res ℤ :=
  let p := sign (s.dropWhile space)
  let ds := p.2.takeWhile digit
  let rest := p.2.dropWhile digit
  let v : ℤ := if p.1 then -(val ds : ℤ) else val ds
  if ds = [] then throw "conversion error"
  else if ¬(lo ≤ v ∧ v ≤ hi) then throw "conversion error"
  else if rest.dropWhile space = [] then ok v else throw "conversion error"

/-- `dataToString<bool>`, string_utils.cc:61-62. -/
def boolToString (b : Bool) : List Char := if b then ['T'] else ['F']

/-- `stringToData<bool>`, string_utils.cc:129-139. -/
def stringToBool (s : List Char) : Res Bool :=
  if s ∈ ["F", "f", "n", "N", "false", ".false.", "FALSE", ".FALSE."].map String.toList then ok false
  else if s ∈ ["T", "t", "y", "Y", "true", ".true.", "TRUE", ".TRUE."].map String.toList then ok true
  else throw "conversion error"

/-- `tokenize`, string_utils.cc:318-325: the loop over `getline(stream,token,delim)`.  `getline` reads up to the delimiter
(which it removes) or the end, and fails when there is nothing left to read. -/
def tokenize (d : Char) : List Char → List (List Char)
  | [] => []
  | s@(_ :: _) =>
    s.takeWhile (· ≠ d) :: (match h : s.dropWhile (· ≠ d) with
      | [] => []
      | _ :: t => tokenize d t)
termination_by s => s.length
decreasing_by
  have h1 := List.length_dropWhile_le (fun x => decide (x ≠ d)) s
  rw [h] at h1
  have h2 := congrArg List.length ‹s = _›
  simp at h1 h2 ⊢
  omega

/-- `split<string>`, string_utils.cc:290-310: white space separated words (each trimmed, which changes nothing). -/
def split (s : List Char) : List (List Char) :=
  match h : s.dropWhile space with
  | [] => []
  | c :: t => (c :: t).takeWhile (fun c => !space c) :: split ((c :: t).dropWhile (fun c => !space c))
termination_by s.length
decreasing_by
  have h1 := List.length_dropWhile_le space s
  have hc : space c = false := by
    have := List.head_dropWhile_not space (l := s) (by rw [h]; simp)
    simpa [h] using this
  rw [h] at h1
  have h2 : ((c :: t).dropWhile (fun c => !space c)).length ≤ t.length := by
    rw [List.dropWhile_cons, if_pos (by simp [hc])]
    exact List.length_dropWhile_le _ t
  simp at h1
  omega

/-- ASCII `::tolower`. -/
def lower (c : Char) : Char := if 'A' ≤ c ∧ c ≤ 'Z' then Char.ofNat (c.toNat + 32) else c

/-- `equal_nocase`, string_utils.cc:155-161. -/
def equalNocase (a b : List Char) : Bool :=
  a.length = b.length && (a.zip b).all (fun p => lower p.1 = lower p.2)

/-- `s.substr(0, s.find(c))` -/
def cutAt (c : Char) (s : List Char) : List Char := s.takeWhile (· ≠ c)

/-- One line of a parameter file, string_utils.cc:182-207: the definition it makes, if any. -/
def parseLine (line : List Char) : Option (List Char × List Char) :=
  let l := trim (cutAt '#' (cutAt '\r' line))
  if l = [] then none
  else if '=' ∈ l then
    let key := trim (l.takeWhile (· ≠ '='))
    let value := trim ((l.dropWhile (· ≠ '=')).drop 1)
    if key = [] then none else some (key, value)
  else none

/-- `map<string,string>`: lookup function. -/
abbrev Dict := List Char → Option (List Char)

/-- `parse_file`, string_utils.cc:171-209, applied to the lines of the file (a file that cannot be opened throws). -/
def parseFile (lines : List (List Char)) : Dict :=
  lines.foldl (fun (d : Dict) line => match parseLine line with
    | some (k, v) => fun k' => if k' = k then some v else d k'
    | none => d) (fun _ => none)

/-! ## trim -/

/-- Specification: `t` is `s` without its leading and trailing blanks and tabs. -/
def IsTrim (s t : List Char) : Prop :=
  ∃ a b, s = a ++ t ++ b ∧ (∀ c ∈ a, c = ' ' ∨ c = '\t') ∧ (∀ c ∈ b, c = ' ' ∨ c = '\t') ∧
    (∀ c ∈ t.head?, c ≠ ' ' ∧ c ≠ '\t') ∧ (∀ c ∈ t.getLast?, c ≠ ' ' ∧ c ≠ '\t')

theorem blank_iff {c : Char} : blank c = true ↔ c = ' ' ∨ c = '\t' := by unfold blank; simp

theorem trim_spec (s : List Char) : IsTrim s (trim s) := by
  unfold trim
  split
  · rename_i p1 r h1 h2
    rw [List.findIdx?_eq_some_iff_getElem] at h1 h2
    obtain ⟨hp1, hb1, hl1⟩ := h1
    obtain ⟨hr, hb2, hl2⟩ := h2
    rw [List.length_reverse] at hr
    rw [List.getElem_reverse] at hb2
    dsimp only
    set p2 := s.length - 1 - r with hp2
    have hle : p1 ≤ p2 := by
      by_contra hc
      have := hl1 p2 (by omega)
      simp only [Bool.not_eq_true, Bool.not_eq_false'] at this
      simp only [Bool.not_eq_true'] at hb2
      rw [hb2] at this; cases this
    refine ⟨s.take p1, s.drop (p2 + 1), ?_, ?_, ?_, ?_, ?_⟩
    · have e1 : s.drop (p2 + 1) = (s.drop p1).drop (p2 - p1 + 1) := by rw [List.drop_drop]; congr 1; omega
      rw [e1, List.append_assoc, List.take_append_drop, List.take_append_drop]
    · intro c hc
      obtain ⟨i, hi, rfl⟩ := List.mem_iff_getElem.mp hc
      rw [List.length_take] at hi
      have := hl1 i (by omega)
      rw [List.getElem_take]
      simp only [Bool.not_eq_true, Bool.not_eq_false'] at this
      exact blank_iff.mp this
    · intro c hc
      obtain ⟨i, hi, rfl⟩ := List.mem_iff_getElem.mp hc
      rw [List.length_drop] at hi
      rw [List.getElem_drop]
      have := hl2 (s.length - 1 - (p2 + 1 + i)) (by omega)
      rw [List.getElem_reverse] at this
      simp only [Bool.not_eq_true, Bool.not_eq_false'] at this
      have e : s.length - 1 - (s.length - 1 - (p2 + 1 + i)) = p2 + 1 + i := by omega
      simp only [e] at this
      exact blank_iff.mp this
    · intro c hc
      rw [List.head?_take, if_neg (by omega), List.head?_drop, List.getElem?_eq_getElem hp1] at hc
      cases hc
      simp only [Bool.not_eq_true'] at hb1
      have := blank_iff.not.mp (by rw [hb1]; simp)
      tauto
    · intro c hc
      rw [List.getLast?_eq_getElem?, List.length_take, List.length_drop, List.getElem?_take, List.getElem?_drop] at hc
      have e : p1 + (min (p2 - p1 + 1) (s.length - p1) - 1) = p2 := by omega
      rw [if_pos (by omega), e, List.getElem?_eq_getElem (by omega)] at hc
      cases hc
      simp only [Bool.not_eq_true'] at hb2
      have := blank_iff.not.mp (by rw [hb2]; simp)
      tauto
  · rename_i hno
    have hall : ∀ c ∈ s, c = ' ' ∨ c = '\t' := by
      intro c hc
      by_contra hne
      have hb : blank c = false := by
        rw [← Bool.not_eq_true]; exact fun h => hne (blank_iff.mp h)
      have f1 : (s.findIdx? (fun c => !blank c)).isSome := by
        rw [List.findIdx?_isSome]; exact List.any_eq_true.mpr ⟨c, hc, by simp [hb]⟩
      have f2 : (s.reverse.findIdx? (fun c => !blank c)).isSome := by
        rw [List.findIdx?_isSome]; exact List.any_eq_true.mpr ⟨c, List.mem_reverse.mpr hc, by simp [hb]⟩
      obtain ⟨a, ha⟩ := Option.isSome_iff_exists.mp f1
      obtain ⟨b, hb⟩ := Option.isSome_iff_exists.mp f2
      exact hno a b ha hb
    exact ⟨s, [], by simp, hall, by simp, by simp, by simp⟩

theorem isTrim_unique {s t u : List Char} (h1 : IsTrim s t) (h2 : IsTrim s u) : t = u := by
  obtain ⟨a, b, e, ha, hb, ht, ht'⟩ := h1
  obtain ⟨a', b', e', ha', hb', hu, hu'⟩ := h2
  have key : ∀ (a b t : List Char), (∀ c ∈ a, c = ' ' ∨ c = '\t') → (∀ c ∈ b, c = ' ' ∨ c = '\t') →
      (∀ c ∈ t.head?, c ≠ ' ' ∧ c ≠ '\t') → (∀ c ∈ t.getLast?, c ≠ ' ' ∧ c ≠ '\t') →
      ((a ++ t ++ b).dropWhile blank).reverse.dropWhile blank = t.reverse := by
    intro a b t ha hb ht ht'
    rw [List.append_assoc, List.dropWhile_append_of_pos (fun c hc => blank_iff.mpr (ha c hc))]
    cases t with
    | nil =>
      have : b.dropWhile blank = [] := List.dropWhile_eq_nil_iff.mpr (fun c hc => blank_iff.mpr (hb c hc))
      simp [this]
    | cons x t =>
      have hx : blank x = false := by
        rw [← Bool.not_eq_true, blank_iff]; have := ht x (by simp); tauto
      rw [List.cons_append, List.dropWhile_cons_of_neg (by simp [hx]), ← List.cons_append, List.reverse_append,
        List.dropWhile_append_of_pos (fun c hc => blank_iff.mpr (hb c (List.mem_reverse.mp hc)))]
      have hl : ((x :: t).getLast?) = some ((x :: t).getLast (by simp)) := List.getLast?_eq_some_getLast _
      have hy := ht' _ hl
      have hr : (x :: t).reverse = (x :: t).getLast (by simp) :: (x :: t).dropLast.reverse := by
        conv_lhs => rw [← List.dropLast_append_getLast (l := x :: t) (by simp)]
        simp
      rw [hr, List.dropWhile_cons_of_neg]
      rw [blank_iff]; tauto
  have k1 := key a b t ha hb ht ht'
  have k2 := key a' b' u ha' hb' hu hu'
  rw [← e] at k1
  rw [← e'] at k2
  exact List.reverse_injective (k1.symm.trans k2)

/-- **C49** `trim` removes exactly the leading and the trailing blanks and tabs: its result is the one string that arises from the
input by cutting off blanks and tabs at both ends and that neither begins nor ends with one. -/
theorem C49_trim (s t : List Char) : trim s = t ↔ IsTrim s t :=
  ⟨fun h => h ▸ trim_spec s, fun h => isTrim_unique (trim_spec s) h⟩

example : trim " \ta b\t ".toList = "a b".toList := by decide

/-! ## integers -/

theorem digitChar_toNat : ∀ n, n < 10 → (Nat.digitChar n).toNat = n + 48 := by decide
theorem digitChar_digit : ∀ n, n < 10 → digit (Nat.digitChar n) = true := by decide

theorem val_append (a : List Char) (c : Char) : val (a ++ [c]) = 10 * val a + (c.toNat - 48) := by
  unfold val; rw [List.foldl_append]; rfl

theorem val_dec (n : ℕ) : val (dec n) = n := by
  induction n using Nat.strong_induction_on with
  | _ n ih =>
    rw [dec]
    split
    · rename_i h
      simp [val, digitChar_toNat n h]
    · rw [val_append, ih _ (by omega), digitChar_toNat _ (by omega)]; omega

theorem dec_digit (n : ℕ) : ∀ c ∈ dec n, digit c = true := by
  induction n using Nat.strong_induction_on with
  | _ n ih =>
    rw [dec]
    split
    · rename_i h
      simp [digitChar_digit n h]
    · intro c hc
      rw [List.mem_append] at hc
      rcases hc with hc | hc
      · exact ih _ (by omega) c hc
      · rw [List.mem_singleton.mp hc]; exact digitChar_digit _ (by omega)

theorem dec_ne_nil (n : ℕ) : dec n ≠ [] := by
  rw [dec]; split <;> simp

/-- A number with `k` decimal digits. -/
theorem dec_length_le (n k : ℕ) : (dec n).length ≤ k + 1 ↔ n < 10 ^ (k + 1) := by
  induction k generalizing n with
  | zero =>
    rw [dec]
    split
    · simpa using by omega
    · rename_i h
      have := List.length_pos_of_ne_nil (dec_ne_nil (n / 10))
      rw [List.length_append, List.length_singleton, Nat.zero_add, pow_one]; omega
  | succ k ih =>
    rw [dec]
    split
    · rename_i h
      have : 10 ^ 1 ≤ 10 ^ (k + 1 + 1) := Nat.pow_le_pow_right (by norm_num) (by omega)
      simp; omega
    · have := ih (n / 10)
      rw [List.length_append, List.length_singleton, Nat.add_le_add_iff_right, this, Nat.div_lt_iff_lt_mul (by norm_num), ← pow_succ]

theorem val_pad (w : ℕ) (s : List Char) : val (pad w s) = val s := by
  have : ∀ k, List.foldl (fun v (c : Char) => 10 * v + (c.toNat - 48)) 0 (List.replicate k '0') = 0 := by
    intro k; induction k with
    | zero => rfl
    | succ k ih => rw [List.replicate_succ', List.foldl_append, ih]; rfl
  unfold pad val; rw [List.foldl_append, this]

theorem pad_digit {w : ℕ} {s : List Char} (h : ∀ c ∈ s, digit c = true) : ∀ c ∈ pad w s, digit c = true := by
  intro c hc
  unfold pad at hc
  rw [List.mem_append] at hc
  rcases hc with hc | hc
  · rw [List.eq_of_mem_replicate hc]; decide
  · exact h c hc

theorem pad_length (w : ℕ) (s : List Char) : (pad w s).length = max w s.length := by
  unfold pad; rw [List.length_append, List.length_replicate]; omega

theorem digit_ne {c d : Char} (h : digit c = true) (hd : digit d = false) : c ≠ d := by
  rintro rfl; rw [h] at hd; cases hd

theorem digit_space {c : Char} (h : digit c = true) : space c = false := by
  unfold space
  simp [digit_ne h (d := ' ') (by decide), digit_ne h (d := '\t') (by decide), digit_ne h (d := '\n') (by decide),
    digit_ne h (d := '\r') (by decide), digit_ne h (d := '\x0b') (by decide), digit_ne h (d := '\x0c') (by decide)]

theorem trim_id {s : List Char} (h : ∀ c ∈ s, c ≠ ' ' ∧ c ≠ '\t') : trim s = s :=
  (C49_trim s s).mpr ⟨[], [], by simp, by simp, by simp, fun c hc => h c (List.mem_of_mem_head? hc),
    fun c hc => h c (List.mem_of_mem_getLast? hc)⟩

theorem sign_digits {s : List Char} (h : ∀ c ∈ s, digit c = true) : sign s = (false, s) := by
  unfold sign
  split
  · exact absurd (h '-' (by simp)) (by decide)
  · exact absurd (h '+' (by simp)) (by decide)
  · rfl

theorem takeWhile_all {p : Char → Bool} {s : List Char} (h : ∀ c ∈ s, p c = true) : s.takeWhile p = s :=
  List.takeWhile_eq_self_iff.mpr h
theorem dropWhile_all {p : Char → Bool} {s : List Char} (h : ∀ c ∈ s, p c = true) : s.dropWhile p = [] :=
  List.dropWhile_eq_nil_iff.mpr h

theorem stringToInt_pos {s : List Char} (h : ∀ c ∈ s, digit c = true) (hne : s ≠ []) {lo hi : ℤ}
    (hr : lo ≤ (val s : ℤ) ∧ (val s : ℤ) ≤ hi) : stringToInt lo hi s = ok (val s : ℤ) := by
  have e : s.dropWhile space = s := by
    cases s with
    | nil => rfl
    | cons c t => rw [List.dropWhile_cons_of_neg]; simp [digit_space (h c (by simp))]
  unfold stringToInt
  simp only [e, sign_digits h, takeWhile_all h, dropWhile_all h, if_neg hne]
  simp [hr]

theorem stringToInt_neg {s : List Char} (h : ∀ c ∈ s, digit c = true) (hne : s ≠ []) {lo hi : ℤ}
    (hr : lo ≤ -(val s : ℤ) ∧ -(val s : ℤ) ≤ hi) : stringToInt lo hi ('-' :: s) = ok (-(val s : ℤ)) := by
  have e : ('-' :: s).dropWhile space = '-' :: s := by rw [List.dropWhile_cons_of_neg]; decide
  unfold stringToInt
  simp only [e, sign, takeWhile_all h, dropWhile_all h, if_neg hne]
  simp [hr]

/-- **C49** Formatting an integer with a given width succeeds exactly if the number, sign included, fits; the result has the
requested width, and reading it back - as any integer type that contains the number - gives the number again. -/
theorem C49_int_roundtrip (x : ℤ) (w : ℕ) (hx : -2 ^ 63 < x ∧ x < 2 ^ 63) :
    ((∃ s, intToString x w = ok s) ↔ (0 ≤ x ∧ 0 < w ∧ x < 10 ^ w ∨ x < 0 ∧ 1 < w ∧ -x < 10 ^ (w - 1))) ∧
    (∀ s, intToString x w = ok s → s.length = w ∧ ∀ lo hi : ℤ, lo ≤ x → x ≤ hi → stringToInt lo hi s = ok x) := by
  unfold intToString
  rw [if_neg (by omega)]
  have hfit : ∀ (n k : ℕ), (pad k (dec n)).length = k ↔ 0 < k ∧ n < 10 ^ k := by
    intro n k
    rw [pad_length]
    have := List.length_pos_of_ne_nil (dec_ne_nil n)
    cases k with
    | zero => simp; exact dec_ne_nil n
    | succ k => rw [← dec_length_le]; omega
  by_cases h0 : 0 ≤ x
  · obtain ⟨n, rfl⟩ := Int.eq_ofNat_of_zero_le h0
    have hd : ∀ c ∈ pad w (dec n), digit c = true := pad_digit (dec_digit n)
    have ht : trim (pad w (dec n)) = pad w (dec n) :=
      trim_id (fun c hc => ⟨digit_ne (hd c hc) (by decide), digit_ne (hd c hc) (by decide)⟩)
    have hne : pad w (dec n) ≠ [] := by unfold pad; simp [dec_ne_nil]
    simp only [h0, if_true, Int.toNat_natCast, ht]
    constructor
    · have e : ((n : ℤ) < 10 ^ w) ↔ n < 10 ^ w := by exact_mod_cast Iff.rfl
      rw [e]
      have := hfit n w
      split
      · rename_i hl; simp [this.mp hl]
      · rename_i hl
        rw [this] at hl
        simp only [reduceCtorEq, exists_false, false_iff]
        omega
    · intro s hs
      split at hs
      · rename_i hl
        cases hs
        refine ⟨hl, fun lo hi h1 h2 => ?_⟩
        have := stringToInt_pos hd hne (lo := lo) (hi := hi) (by rw [val_pad, val_dec]; exact ⟨h1, h2⟩)
        rwa [val_pad, val_dec] at this
      · cases hs
  · obtain ⟨n, hn⟩ : ∃ n : ℕ, x = -(n : ℤ) := ⟨(-x).toNat, by omega⟩
    subst hn
    have hn0 : 0 < n := by omega
    have hd : ∀ c ∈ pad (w - 1) (dec n), digit c = true := pad_digit (dec_digit n)
    have ht : trim ('-' :: pad (w - 1) (dec n)) = '-' :: pad (w - 1) (dec n) := by
      apply trim_id
      intro c hc
      rcases List.mem_cons.mp hc with rfl | hc
      · decide
      · exact ⟨digit_ne (hd c hc) (by decide), digit_ne (hd c hc) (by decide)⟩
    have hne : pad (w - 1) (dec n) ≠ [] := by unfold pad; simp [dec_ne_nil]
    have hlen : ('-' :: pad (w - 1) (dec n)).length = w ↔ 1 < w ∧ n < 10 ^ (w - 1) := by
      have := hfit n (w - 1)
      rw [List.length_cons]
      have := List.length_pos_of_ne_nil hne
      omega
    simp only [h0, if_false, neg_neg, Int.toNat_natCast, ht]
    constructor
    · have e : ((n : ℤ) < 10 ^ (w - 1)) ↔ n < 10 ^ (w - 1) := by exact_mod_cast Iff.rfl
      rw [e]
      split
      · rename_i hl; have := hlen.mp hl; simp only [ok.injEq, exists_eq', true_iff]; right; exact ⟨by omega, this⟩
      · rename_i hl
        rw [hlen] at hl
        simp only [reduceCtorEq, exists_false, false_iff]
        rintro (h1 | h1)
        · exact h1.1
        · exact hl ⟨h1.2.1, h1.2.2⟩
    · intro s hs
      split at hs
      · rename_i hl
        cases hs
        refine ⟨hl, fun lo hi h1 h2 => ?_⟩
        have := stringToInt_neg hd hne (lo := lo) (hi := hi) (by rw [val_pad, val_dec]; exact ⟨h1, h2⟩)
        rwa [val_pad, val_dec] at this
      · cases hs

example : intToString 42 5 = ok "00042".toList := by
  simp [intToString, pad, dec]; decide
example : intToString (-42) 5 = ok "-0042".toList := by
  simp [intToString, pad, dec]; decide

/-- **C49** Formatting the smallest 64-bit integer is undefined behaviour, whatever the width. -/
theorem C49_int_min_ub (w : ℕ) : ∃ m, intToString (-2 ^ 63) w = ub m := ⟨_, by unfold intToString; rw [if_pos rfl]⟩

/-- **C49** Truth values survive being written and read. -/
theorem C49_bool_roundtrip (b : Bool) : stringToBool (boolToString b) = ok b := by cases b <;> decide

/-! ## tokenize -/

theorem tokenize_nil (d : Char) : tokenize d [] = [] := by rw [tokenize]

theorem tokenize_cons {d c : Char} {t : List Char} : tokenize d (c :: t) =
    (c :: t).takeWhile (· ≠ d) :: tokenize d (((c :: t).dropWhile (· ≠ d)).drop 1) := by
  rw [tokenize]
  congr 1
  split
  · rename_i h; rw [h]; simp [tokenize_nil]
  · rename_i h; rw [h]; rfl

/-- The pieces of a text, each followed by the separator. -/
def joinEnd (d : Char) (l : List (List Char)) : List Char := l.flatMap (fun t => t ++ [d])

/-- **C49** `tokenize` cuts a text exactly at the separators: no piece contains a separator, and gluing the pieces together, with a
separator after each one, gives the text back, followed by a separator if it did not end with one. -/
theorem C49_tokenize (d : Char) (s : List Char) :
    (∀ t ∈ tokenize d s, d ∉ t) ∧
    joinEnd d (tokenize d s) = s ++ (if s = [] ∨ s.getLast? = some d then [] else [d]) := by
  induction hn : s.length using Nat.strong_induction_on generalizing s with
  | _ n ih =>
    cases s with
    | nil => simp [tokenize_nil, joinEnd]
    | cons c t =>
      rw [tokenize_cons]
      set s := c :: t with hs
      set u := (s.dropWhile (· ≠ d)).drop 1 with hu
      have hlen : u.length < n := by
        have := List.length_dropWhile_le (fun x => decide (x ≠ d)) s
        have h2 : 0 < s.length := by rw [hs]; simp
        rw [hu, List.length_drop]; omega
      obtain ⟨i1, i2⟩ := ih u.length hlen u rfl
      constructor
      · intro x hx
        rcases List.mem_cons.mp hx with rfl | hx
        · intro hd
          have := List.mem_takeWhile_imp hd
          simp at this
        · exact i1 x hx
      · have e : joinEnd d (s.takeWhile (· ≠ d) :: tokenize d u) = s.takeWhile (· ≠ d) ++ [d] ++ joinEnd d (tokenize d u) := by
          simp [joinEnd]
        rw [e, i2]
        have hsplit : s = s.takeWhile (· ≠ d) ++ s.dropWhile (· ≠ d) := (List.takeWhile_append_dropWhile).symm
        rcases hdw : s.dropWhile (· ≠ d) with _ | ⟨x, r⟩
        · have hu0 : u = [] := by rw [hu, hdw]; rfl
          rw [hdw, List.append_nil] at hsplit
          rw [← hsplit, hu0, if_pos (Or.inl rfl), if_neg]
          · simp
          · rintro (h | h)
            · exact absurd h (by rw [hs]; simp)
            · have := List.mem_of_mem_getLast? h
              have := List.dropWhile_eq_nil_iff.mp hdw d this
              simp at this
        · have hx : x = d := by
            have := List.head_dropWhile_not (fun x => decide (x ≠ d)) (l := s) (by rw [hdw]; simp)
            simp only [hdw, List.head_cons] at this
            simpa using this
          have hu0 : u = r := by rw [hu, hdw]; rfl
          rw [hx] at hdw
          rw [hdw] at hsplit
          rw [hu0]
          have hsne : s ≠ [] := by rw [hs]; simp
          by_cases hr : r = []
          · subst hr
            rw [if_pos (Or.inl rfl), if_pos]
            · simpa using hsplit.symm
            · right; rw [hsplit]; simp
          · have hgl : s.getLast? = r.getLast? := by
              conv_lhs => rw [hsplit]
              rw [List.append_cons, List.getLast?_append_of_ne_nil _ hr]
            simp only [hr, hsne, hgl, false_or]
            conv_rhs => rw [hsplit]
            simp

/-- Gluing pieces without the separator is injective up to the pieces. -/
theorem joinEnd_inj (d : Char) : ∀ (a b : List (List Char)), (∀ t ∈ a, d ∉ t) → (∀ t ∈ b, d ∉ t) →
    joinEnd d a = joinEnd d b → a = b := by
  intro a
  induction a with
  | nil =>
    intro b _ _ h
    cases b with
    | nil => rfl
    | cons y b => simp [joinEnd] at h
  | cons x a ih =>
    intro b ha hb h
    cases b with
    | nil => simp [joinEnd] at h
    | cons y b =>
      have e : ∀ (x : List Char) a, joinEnd d (x :: a) = x ++ d :: joinEnd d a := by intros; simp [joinEnd]
      rw [e, e] at h
      have key : ∀ (x y r r' : List Char), d ∉ x → d ∉ y → x ++ d :: r = y ++ d :: r' → x = y ∧ r = r' := by
        intro x
        induction x with
        | nil =>
          intro y r r' _ hy h
          cases y with
          | nil => simpa using h
          | cons c y => simp at h hy; exact absurd h.1 hy.1
        | cons c x ih =>
          intro y r r' hx hy h
          cases y with
          | nil => simp at h hx; exact absurd h.1.symm hx.1
          | cons c' y =>
            simp at h hx hy
            obtain ⟨e1, e2⟩ := ih y r r' hx.2 hy.2 h.2
            exact ⟨by rw [h.1, e1], e2⟩
      obtain ⟨e1, e2⟩ := key x y _ _ (ha x (by simp)) (hb y (by simp)) h
      rw [e1, ih b (fun t ht => ha t (by simp [ht])) (fun t ht => hb t (by simp [ht])) e2]

/-- **C49** Pieces joined by the separator are found again, provided the last one is not empty. -/
theorem C49_tokenize_join (d : Char) (l : List (List Char)) (h : ∀ t ∈ l, d ∉ t) (hl : ∀ t ∈ l.getLast?, t ≠ []) :
    tokenize d (List.intercalate [d] l) = l := by
  have hj : ∀ (l : List (List Char)), l ≠ [] → List.intercalate [d] l ++ [d] = joinEnd d l := by
    intro l
    induction l with
    | nil => simp
    | cons x l ih =>
      intro _
      cases l with
      | nil => simp [joinEnd, List.intercalate]
      | cons y l =>
        have := ih (by simp)
        have e : joinEnd d (x :: y :: l) = x ++ [d] ++ joinEnd d (y :: l) := by simp [joinEnd]
        rw [e, ← this]
        simp [List.intercalate]
  by_cases hne : l = []
  · subst hne; simp [List.intercalate, tokenize_nil]
  · set s := List.intercalate [d] l with hs
    obtain ⟨t1, t2⟩ := C49_tokenize d s
    apply joinEnd_inj d _ _ t1 h
    rw [t2, ← hj l hne, ← hs]
    have hlast : s.getLast? = (l.getLast hne).getLast? ∧ s ≠ [] := by
      have hx : l.getLast hne ≠ [] := hl _ (List.getLast?_eq_some_getLast hne)
      have : ∃ a, s = a ++ l.getLast hne := by
        have e := hj l hne
        rw [← hs] at e
        have e2 : joinEnd d l = joinEnd d l.dropLast ++ l.getLast hne ++ [d] := by
          conv_lhs => rw [← List.dropLast_append_getLast hne]
          simp [joinEnd]
        rw [e2] at e
        exact ⟨_, List.append_cancel_right e⟩
      obtain ⟨a, ha⟩ := this
      rw [ha]
      exact ⟨List.getLast?_append_of_ne_nil _ hx, by simp [hx]⟩
    rw [if_neg]
    rintro (h' | h')
    · exact hlast.2 h'
    · rw [hlast.1] at h'
      exact h _ (List.getLast_mem hne) (List.mem_of_mem_getLast? h')

/-- **C49** An empty last piece is lost: a text and the same text with a final separator may be cut alike. -/
theorem C49_tokenize_trailing (d : Char) (s : List Char) (h : s ≠ []) (hd : s.getLast? ≠ some d) :
    tokenize d (s ++ [d]) = tokenize d s := by
  obtain ⟨t1, t2⟩ := C49_tokenize d s
  obtain ⟨t3, t4⟩ := C49_tokenize d (s ++ [d])
  apply joinEnd_inj d _ _ t3 t1
  rw [t2, t4, if_neg (not_or.mpr ⟨h, hd⟩), if_pos (by simp)]
  simp

example : tokenize ',' "a,,b".toList = ["a".toList, [], "b".toList] := by
  simp [tokenize_cons, tokenize_nil]

/-! ## split -/

/-- **C49** `split` gives the white-space separated words: the words are not empty and contain no white space, and their
concatenation is the text without its white space. -/
theorem C49_split (s : List Char) : (∀ w ∈ split s, w ≠ [] ∧ ∀ c ∈ w, space c = false) ∧
    (split s).flatten = s.filter (fun c => !space c) := by
  induction hn : s.length using Nat.strong_induction_on generalizing s with
  | _ n ih =>
    rw [split]
    have hfil : s.filter (fun c => !space c) = (s.dropWhile space).filter (fun c => !space c) := by
      conv_lhs => rw [← List.takeWhile_append_dropWhile (p := space) (l := s)]
      rw [List.filter_append, List.filter_eq_nil_iff.mpr, List.nil_append]
      intro c hc; have := List.mem_takeWhile_imp hc; simp [this]
    rw [hfil]
    have hle := List.length_dropWhile_le space s
    split
    · rename_i h; simp [h]
    · rename_i c t h
      rw [h]
      rw [h] at hle
      have hc : space c = false := by
        have := List.head_dropWhile_not space (l := s) (by rw [h]; simp)
        simpa [h] using this
      set u := (c :: t).dropWhile (fun c => !space c) with hu
      have hul : u.length ≤ t.length := by
        rw [hu, List.dropWhile_cons, if_pos (by simp [hc])]
        exact List.length_dropWhile_le _ t
      obtain ⟨i1, i2⟩ := ih u.length (by simp at hle; omega) u rfl
      constructor
      · intro w hw
        rcases List.mem_cons.mp hw with rfl | hw
        · refine ⟨by rw [List.takeWhile_cons_of_pos (by simp [hc])]; simp, fun x hx => ?_⟩
          have := List.mem_takeWhile_imp hx; simpa using this
        · exact i1 w hw
      · rw [List.flatten_cons, i2]
        conv_rhs => rw [← List.takeWhile_append_dropWhile (p := fun c => !space c) (l := c :: t)]
        rw [List.filter_append]
        congr 1
        exact (List.filter_eq_self.mpr (fun x hx => List.mem_takeWhile_imp (p := fun c => !space c) hx)).symm

/-! ## comparison without regard to case -/

/-- **C49** `equal_nocase` holds exactly if the two strings become equal when written in lower case; so it is an equivalence
relation. -/
theorem C49_equal_nocase (a b : List Char) : equalNocase a b = true ↔ a.map lower = b.map lower := by
  unfold equalNocase
  induction a generalizing b with
  | nil => cases b <;> simp
  | cons x a ih =>
    cases b with
    | nil => simp
    | cons y b =>
      have := ih b
      simp only [Bool.and_eq_true, decide_eq_true_eq] at this
      simp only [List.length_cons, List.zip_cons_cons, List.all_cons, Bool.and_eq_true, decide_eq_true_eq, List.map_cons,
        List.cons.injEq, ← this, Nat.add_right_cancel_iff]
      tauto

/-! ## parameter files -/

theorem foldl_dict (lines : List (List Char)) (d0 : Dict) (k : List Char) :
    lines.foldl (fun (d : Dict) line => match parseLine line with
      | some (k, v) => fun k' => if k' = k then some v else d k'
      | none => d) d0 k =
    ((lines.filterMap parseLine).reverse.find? (fun p => p.1 = k)).elim (d0 k) (fun p => some p.2) := by
  induction lines generalizing d0 with
  | nil => simp
  | cons l lines ih =>
    rw [List.foldl_cons, ih]
    cases hp : parseLine l with
    | none => simp [hp]
    | some p =>
      rw [List.filterMap_cons, hp]
      dsimp only
      rw [List.reverse_cons, List.find?_append]
      cases hf : (lines.filterMap parseLine).reverse.find? (fun p => p.1 = k) with
      | some q => simp
      | none =>
        by_cases hk : k = p.1
        · subst hk; simp
        · have : ¬p.1 = k := fun h => hk h.symm
          simp [hk, this]

/-- **C49** A parameter read from a file has the value given by the last line defining it, and is absent if no line does. -/
theorem C49_parse_last (lines : List (List Char)) (k : List Char) :
    parseFile lines k = ((lines.filterMap parseLine).reverse.find? (fun p => p.1 = k)).map (·.2) := by
  unfold parseFile
  rw [foldl_dict]
  cases (lines.filterMap parseLine).reverse.find? (fun p => p.1 = k) <;> rfl

/-- **C49** A line of the form `key = value  # comment` defines exactly the key and value written in it: for every key and value
that neither begin nor end with a blank or a tab, contain neither `#` nor a carriage return, and - for the key - is not empty and
contains no `=`, and any blanks or tabs around them. -/
theorem C49_parse_line (b1 b2 b3 b4 k v rest : List Char) (hb : ∀ b ∈ [b1, b2, b3, b4], ∀ c ∈ b, c = ' ' ∨ c = '\t')
    (hk : k ≠ []) (hkh : ∀ c ∈ k.head?, c ≠ ' ' ∧ c ≠ '\t') (hkl : ∀ c ∈ k.getLast?, c ≠ ' ' ∧ c ≠ '\t')
    (hke : '=' ∉ k) (hvh : ∀ c ∈ v.head?, c ≠ ' ' ∧ c ≠ '\t') (hvl : ∀ c ∈ v.getLast?, c ≠ ' ' ∧ c ≠ '\t')
    (hkc : '#' ∉ k ∧ '\r' ∉ k) (hvc : '#' ∉ v ∧ '\r' ∉ v)
    (hrest : rest = [] ∨ ∃ r, rest = '#' :: r ∨ rest = '\r' :: r) :
    parseLine (b1 ++ k ++ b2 ++ ['='] ++ b3 ++ v ++ b4 ++ rest) = some (k, v) := by
  have hbl : ∀ (d : Char), d ≠ ' ' → d ≠ '\t' → ∀ b ∈ [b1, b2, b3, b4], d ∉ b := by
    intro d h1 h2 b hb' hd
    rcases hb b hb' d hd with h | h
    · exact h1 h
    · exact h2 h
  set core := b1 ++ k ++ b2 ++ ['='] ++ b3 ++ v ++ b4 with hcore
  have hno : ∀ d, d ≠ ' ' → d ≠ '\t' → d ≠ '=' → d ∉ k → d ∉ v → d ∉ core := by
    intro d h1 h2 h3 h4 h5
    have h := hbl d h1 h2
    simp only [hcore, List.mem_append, List.mem_singleton]
    have q1 := h b1 (by simp); have q2 := h b2 (by simp); have q3 := h b3 (by simp); have q4 := h b4 (by simp)
    tauto
  have hcut : ∀ (a r : List Char) (d : Char), d ∉ a → cutAt d (a ++ r) = a ++ cutAt d r := by
    intro a r d hd
    unfold cutAt
    rw [List.takeWhile_append_of_pos]
    intro x hx
    simp only [ne_eq, decide_eq_true_eq]
    rintro rfl; exact hd hx
  have hl : trim (cutAt '#' (cutAt '\r' (core ++ rest))) = trim core := by
    have n1 := hno '#' (by decide) (by decide) (by decide) hkc.1 hvc.1
    have n2 := hno '\r' (by decide) (by decide) (by decide) hkc.2 hvc.2
    rw [hcut _ _ _ n2, hcut _ _ _ n1]
    rcases hrest with rfl | ⟨r, rfl | rfl⟩
    · simp [cutAt]
    · congr 1
      have : cutAt '#' (cutAt '\r' ('#' :: r)) = [] := by
        unfold cutAt
        rw [List.takeWhile_cons_of_pos (by decide)]
        simp
      rw [this, List.append_nil]
    · simp [cutAt]
  -- what trimming the whole line gives
  obtain ⟨t, ht, hkt⟩ : ∃ t, trim core = k ++ b2 ++ ['='] ++ t ∧ IsTrim t v := by
    by_cases hv : v = []
    · refine ⟨[], ?_, ?_⟩
      · rw [C49_trim]
        refine ⟨b1, b3 ++ b4, by rw [hcore, hv]; simp, hb b1 (by simp), ?_, ?_, ?_⟩
        · intro c hc
          rcases List.mem_append.mp hc with hc | hc
          · exact hb b3 (by simp) c hc
          · exact hb b4 (by simp) c hc
        · obtain ⟨x, k', rfl⟩ := List.exists_cons_of_ne_nil hk
          simpa using hkh
        · simp
      · rw [hv]; exact ⟨[], [], by simp, by simp, by simp, by simp, by simp⟩
    · refine ⟨b3 ++ v, ?_, ?_⟩
      · rw [C49_trim]
        refine ⟨b1, b4, by rw [hcore]; simp, hb b1 (by simp), hb b4 (by simp), ?_, ?_⟩
        · obtain ⟨x, k', rfl⟩ := List.exists_cons_of_ne_nil hk
          simpa using hkh
        · intro c hc
          apply hvl
          rw [← List.append_assoc, List.getLast?_append_of_ne_nil _ hv] at hc
          exact hc
      · exact ⟨b3, [], by simp, hb b3 (by simp), by simp, hvh, hvl⟩
  have hkb : ∀ x ∈ k ++ b2, x ≠ '=' := by
    intro x hx
    rintro rfl
    rcases List.mem_append.mp hx with h | h
    · exact hke h
    · exact hbl '=' (by decide) (by decide) b2 (by simp) h
  unfold parseLine
  dsimp only
  rw [hl, ht, if_neg (by simp), if_pos (by simp)]
  have e1 : (k ++ b2 ++ ['='] ++ t).takeWhile (· ≠ '=') = k ++ b2 := by
    rw [List.append_assoc, List.takeWhile_append_of_pos (by intro x hx; simpa using hkb x hx)]
    simp
  have e2 : (k ++ b2 ++ ['='] ++ t).dropWhile (· ≠ '=') = '=' :: t := by
    rw [List.append_assoc, List.dropWhile_append_of_pos (by intro x hx; simpa using hkb x hx)]
    simp
  have e3 : trim (k ++ b2) = k := (C49_trim _ _).mpr ⟨[], b2, by simp, by simp, hb b2 (by simp), hkh, hkl⟩
  rw [e1, e2, e3, if_neg hk, List.drop_one, List.tail_cons, (C49_trim t v).mpr hkt]

example : parseLine " lmax = 512 # band limit".toList = some ("lmax".toList, "512".toList) := by decide

end Verif.Str
