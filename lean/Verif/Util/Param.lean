import Verif.Util.StrMore

/-!
# C81: parameter files in C

Model of levels/c_utils/parser.c.  A string is a list of characters without the character 0; so is the content of a file.  Files have
fewer than `2^31` lines and definitions; memory is never exhausted.
-/

namespace Verif.Param
open Verif Res

/-! ## The code -/

/-- The characters `strtrim` removes, parser.c:48-53. -/
def tblank (c : Char) : Bool := c = ' ' || c = '\t' || c = '\n'

/-- `strtrim`, parser.c:44-56: first at the end, then at the start. -/
def strtrim (s : List Char) : List Char := (s.reverse.dropWhile tblank).reverse.dropWhile tblank

/-- `fgets(line, n+1, fd)`: at most `n` characters, up to and including the end of a line; what was read and what is left
(called in parser.c:90). -/
def fgets : ℕ → List Char → List Char × List Char
  | 0, s => ([], s)
  | _ + 1, [] => ([], [])
  | n + 1, c :: s => if c = '\n' then ([c], s) else (c :: (fgets n s).1, (fgets n s).2)

/-- What one trimmed line is. -/
inductive Line where
  | skip | bad | defn (key value : List Char)
  deriving DecidableEq

/-- The body of the loop, parser.c:95-114, for the trimmed line. -/
def parse (line : List Char) : Line :=
  match line with
  | [] => .skip
  | c :: _ =>
    if c = '#' then .skip
    else
      let eqpos := (line.takeWhile (· ≠ '=')).length
      if eqpos = 0 ∨ eqpos = line.length then .bad
      else .defn (strtrim (line.take eqpos)) (strtrim (line.drop (eqpos + 1)))

/-- `params`: keys and values in the order of the file. -/
abbrev Params := List (List Char × List Char)

theorem fgets_le (n : ℕ) : ∀ s, (fgets n s).2.length ≤ s.length := by
  induction n with
  | zero => intro s; simp [fgets]
  | succ n ih =>
    intro s
    cases s with
    | nil => simp [fgets]
    | cons c s =>
      unfold fgets
      split
      · simp
      · have := ih s; simp only [List.length_cons]; omega

/-- The loop over the lines, parser.c:90-115; `fgets` fails at the end of the file. -/
def readLoop : List Char → Params
  | [] => []
  | c :: s =>
    match parse (strtrim (fgets 1999 (c :: s)).1) with
    | .skip => readLoop (fgets 1999 (c :: s)).2
    | .bad => []
    | .defn k v => (k, v) :: readLoop (fgets 1999 (c :: s)).2
termination_by s => s.length
decreasing_by
  all_goals
    have h : ∀ n, (fgets (n + 1) (c :: s)).2.length < (c :: s).length := by
      intro n
      unfold fgets
      split
      · simp
      · have := fgets_le n s; simp only [List.length_cons]; omega
    exact h 1998

/-- `openParams(file)`, parser.c:74-118; no file: null pointer. -/
def openParams (file : Option (List Char)) : Option Params := file.map readLoop

/-- The loop of `locateParam` from position `m` on, parser.c:140-141. -/
def locateFrom (key : List Char) : Params → ℤ → ℤ
  | [], _ => -1
  | (k, _) :: p, m => if key = k then m else locateFrom key p (m + 1)

/-- `locateParam(vpar, key)`, parser.c:136-143; a null pointer is dereferenced. -/
def locateParam (par : Option Params) (key : List Char) : Res ℤ :=
  match par with
  | none => ub "null pointer"
  | some p => ok (locateFrom key p 0)

/-- `par->value[idx]` -/
def valueAt (par : Option Params) (idx : ℤ) : Res (List Char) :=
  match par with
  | none => ub "null pointer"
  | some p => do let e ← rd p idx; ok e.2

/-- `strtol(s, &endptr, 10)` (64 bit) and `strtoll`, C standard: number and the string that `endptr` points to. -/
def strtol (s : List Char) : ℤ × List Char :=
  let p := Str.sign (s.dropWhile Str.space)
  let ds := p.2.takeWhile Str.digit
  if ds = [] then (0, s)
  else (max (-2 ^ 63) (min (2 ^ 63 - 1) (if p.1 then -(Str.val ds : ℤ) else Str.val ds)), p.2.dropWhile Str.digit)

/-- Conversion of a `long` to an `int`. -/
def toInt (x : ℤ) : ℤ := (x + 2 ^ 31) % 2 ^ 32 - 2 ^ 31

/-- `getVarLongLong`, parser.c:158-169, and (with `conv = toInt`) `getVarInt`, parser.c:145-156: returned status and new value
of `*result`, if it is assigned. -/
def getVar (conv : ℤ → ℤ) (par : Option Params) (key : List Char) : Res (ℤ × Option ℤ) := do
  let idx ← locateParam par key
  if idx < 0 then ok (1, none)
  else do
    let v ← valueAt par idx
    if v = [] then ok (1, none)
    else ok (if (strtol v).2 ≠ [] then 1 else 0, some (conv (strtol v).1))

/-- `getVarInt`, parser.c:145-156. -/
def getVarInt : Option Params → List Char → Res (ℤ × Option ℤ) := getVar toInt

/-- `getVarLongLong`, parser.c:158-169. -/
def getVarLongLong : Option Params → List Char → Res (ℤ × Option ℤ) := getVar id

/-- `getVarStringMem`, parser.c:189-198, and `getVarString`, parser.c:184-187: status and the allocated copy. -/
def getVarString (par : Option Params) (key : List Char) : Res (ℤ × Option (List Char)) := do
  let idx ← locateParam par key
  if idx < 0 then ok (1, none)
  else do
    let v ← valueAt par idx
    ok (0, some v)

/-- `strcpy` of a string to a buffer, with the 0 at the end. -/
def strcpy (buf : List Char) (s : List Char) : Res (List Char) :=
  if s.length + 1 ≤ buf.length then ok (s ++ '\x00' :: buf.drop (s.length + 1)) else ub "write behind the buffer"

/-- `getVarStringProt(vpar, key, result, capacity)`, parser.c:200-208: status and contents of the buffer; `capacity - 1` is
computed with 64 bit unsigned numbers. -/
def getVarStringProt (par : Option Params) (key : List Char) (buf : List Char) (capacity : ℕ) : Res (ℤ × List Char) := do
  let idx ← locateParam par key
  if idx < 0 then ok (1, buf)
  else do
    let v ← valueAt par idx
    if (v.length : ℤ) > ((capacity : ℤ) - 1) % 2 ^ 64 then ok (1, buf)
    else do
      let b ← strcpy buf v
      ok (0, b)

/-! ## Specification -/

/-- A character that is ignored around keys and values. -/
def Blank (c : Char) : Prop := c = ' ' ∨ c = '\t' ∨ c = '\n'

/-- No ignored character at the start or the end. -/
def Trimmed (s : List Char) : Prop := (∀ c ∈ s.head?, ¬Blank c) ∧ (∀ c ∈ s.getLast?, ¬Blank c)

/-- What a line of the file means. -/
inductive Means : List Char → Line → Prop where
  | blank (s : List Char) (h : ∀ c ∈ s, Blank c) : Means s .skip
  | comment (a s : List Char) (h : ∀ c ∈ a, Blank c) : Means (a ++ '#' :: s) .skip
  | defn (a k b c v d : List Char) (ha : ∀ x ∈ a, Blank x) (hb : ∀ x ∈ b, Blank x) (hc : ∀ x ∈ c, Blank x) (hd : ∀ x ∈ d, Blank x)
      (hk : k ≠ []) (hk1 : Trimmed k) (hk2 : '=' ∉ k) (hk3 : k.head? ≠ some '#') (hv : Trimmed v) :
      Means (a ++ k ++ b ++ '=' :: (c ++ v ++ d)) (.defn k v)
  | noKey (a s : List Char) (ha : ∀ x ∈ a, Blank x) : Means (a ++ '=' :: s) .bad
  | noEq (s : List Char) (h1 : '=' ∉ s) (h2 : ∀ a t, s = a ++ '#' :: t → ¬∀ c ∈ a, Blank c) (h3 : ¬∀ c ∈ s, Blank c) : Means s .bad

/-- What a file means, given what its lines mean: the definitions up to the first bad line. -/
def entries : List Line → Params
  | [] => []
  | .skip :: l => entries l
  | .bad :: _ => []
  | .defn k v :: l => (k, v) :: entries l

/-! ## Trimming -/

theorem tblank_iff (c : Char) : tblank c = true ↔ Blank c := by simp [tblank, Blank, or_assoc]

theorem tblank_not {c : Char} : tblank c = false ↔ ¬Blank c := by rw [← tblank_iff]; simp

theorem strtrim_of {a t b : List Char} (ha : ∀ c ∈ a, Blank c) (hb : ∀ c ∈ b, Blank c) (ht : Trimmed t) :
    strtrim (a ++ t ++ b) = t := by
  unfold strtrim
  rw [List.reverse_append, List.dropWhile_append_of_pos (fun c hc => (tblank_iff c).mpr (hb c (by simpa using hc)))]
  by_cases h0 : t = []
  · subst h0
    rw [List.append_nil, List.dropWhile_eq_nil_iff]
    intro c hc
    rw [List.mem_reverse] at hc
    exact (tblank_iff c).mpr (ha c (List.mem_reverse.mp ((List.dropWhile_sublist _).mem hc)))
  · have h1 : (a ++ t).reverse.dropWhile tblank = (a ++ t).reverse := by
      obtain ⟨l, x, rfl⟩ : ∃ l x, t = l ++ [x] := ⟨t.dropLast, t.getLast h0, (List.dropLast_append_getLast h0).symm⟩
      have hx : ¬Blank x := ht.2 x (by simp)
      rw [← List.append_assoc, List.reverse_append, List.reverse_singleton, List.singleton_append,
        List.dropWhile_cons_of_neg (by rw [tblank_iff]; exact hx)]
    rw [h1, List.reverse_reverse, List.dropWhile_append_of_pos (fun c hc => (tblank_iff c).mpr (ha c hc))]
    obtain ⟨x, l, rfl⟩ := List.exists_cons_of_ne_nil h0
    exact List.dropWhile_cons_of_neg (by rw [tblank_iff]; exact ht.1 x (by simp))

theorem dropWhile_head {p : Char → Bool} (s : List Char) : ∀ c ∈ (s.dropWhile p).head?, p c = false := by
  induction s with
  | nil => simp
  | cons x s ih =>
    by_cases h : p x = true
    · rw [List.dropWhile_cons_of_pos h]; exact ih
    · rw [List.dropWhile_cons_of_neg h]
      intro c hc
      simp only [List.head?_cons, Option.mem_def, Option.some.injEq] at hc
      subst hc
      simpa using h

/-- Every string is a trimmed one between ignored characters. -/
theorem strtrim_spec (s : List Char) : ∃ a b, s = a ++ strtrim s ++ b ∧ (∀ c ∈ a, Blank c) ∧ (∀ c ∈ b, Blank c) ∧ Trimmed (strtrim s) := by
  have e1 : s = (s.reverse.dropWhile tblank).reverse ++ (s.reverse.takeWhile tblank).reverse := by
    rw [← List.reverse_append, List.takeWhile_append_dropWhile, List.reverse_reverse]
  obtain ⟨u, hu⟩ : ∃ u, u = (s.reverse.dropWhile tblank).reverse := ⟨_, rfl⟩
  have hst : strtrim s = u.dropWhile tblank := by rw [hu]; rfl
  refine ⟨u.takeWhile tblank, (s.reverse.takeWhile tblank).reverse, ?_, ?_, ?_, ?_, ?_⟩
  · rw [hst, List.takeWhile_append_dropWhile, hu]; exact e1
  · exact fun c hc => (tblank_iff c).mp (List.mem_takeWhile_imp hc)
  · exact fun c hc => (tblank_iff c).mp (List.mem_takeWhile_imp (List.mem_reverse.mp hc))
  · rw [hst]
    exact fun c hc => tblank_not.mp (dropWhile_head u c hc)
  · rw [hst]
    intro c hc
    have hne : u.dropWhile tblank ≠ [] := by intro h; rw [h] at hc; simp at hc
    have h2 : u.getLast? = some c := by
      have h3 : u = u.takeWhile tblank ++ u.dropWhile tblank := (List.takeWhile_append_dropWhile).symm
      rw [h3, List.getLast?_append_of_ne_nil _ hne]
      exact hc
    rw [hu, List.getLast?_reverse] at h2
    exact tblank_not.mp (dropWhile_head s.reverse c h2)

/-! ## One line -/

theorem strtrim_lead {a : List Char} (s : List Char) (ha : ∀ c ∈ a, Blank c) : strtrim (a ++ s) = strtrim s := by
  obtain ⟨a', b, h1, h2, h3, h4⟩ := strtrim_spec s
  have e : a ++ s = (a ++ a') ++ strtrim s ++ b := by rw [List.append_assoc a, List.append_assoc a, ← h1]
  rw [e]
  refine strtrim_of (fun c hc => ?_) h3 h4
  rcases List.mem_append.mp hc with h | h
  · exact ha c h
  · exact h2 c h

theorem strtrim_cons {x : Char} (s : List Char) (hx : ¬Blank x) : ∃ l b, strtrim (x :: s) = x :: l ∧ s = l ++ b ∧ ∀ c ∈ b, Blank c := by
  obtain ⟨a', b, h1, h2, h3, -⟩ := strtrim_spec (x :: s)
  cases a' with
  | cons y l =>
    have : y = x := by simpa using (congrArg List.head? h1).symm
    subst this
    exact absurd (h2 y (by simp)) hx
  | nil =>
    cases hq : strtrim (x :: s) with
    | nil =>
      rw [hq] at h1
      have : x ∈ b := by rw [show b = x :: s by simpa using h1.symm]; simp
      exact absurd (h3 x this) hx
    | cons y l =>
      rw [hq] at h1
      simp only [List.nil_append, List.cons_append, List.cons.injEq] at h1
      obtain ⟨rfl, h1⟩ := h1
      exact ⟨l, b, rfl, h1, h3⟩

theorem blank_ne_eq {c : Char} (h : Blank c) : c ≠ '=' := by rintro rfl; simp [Blank] at h

theorem takeWhile_eqsign {u y : List Char} (hu : '=' ∉ u) : (u ++ '=' :: y).takeWhile (· ≠ '=') = u := by
  rw [List.takeWhile_append_of_pos (by intro c hc; simp only [ne_eq, decide_eq_true_eq]; rintro rfl; exact hu hc)]
  simp

theorem parse_defn {u y : List Char} (hu : '=' ∉ u) (h0 : u ≠ []) (h1 : u.head? ≠ some '#') :
    parse (u ++ '=' :: y) = .defn (strtrim u) (strtrim y) := by
  obtain ⟨x, l, rfl⟩ := List.exists_cons_of_ne_nil h0
  have ht := takeWhile_eqsign (y := y) hu
  have hx : x ≠ '#' := by rintro rfl; exact h1 rfl
  rw [List.cons_append] at ht ⊢
  unfold parse
  dsimp only
  rw [if_neg hx, ht, if_neg (by simp), ← List.cons_append]
  rw [List.take_left' rfl]
  congr 2
  have : (x :: l ++ '=' :: y) = ((x :: l) ++ ['=']) ++ y := by simp
  rw [this, List.drop_left' (by simp)]

theorem means_parse {s : List Char} {x : Line} (h : Means s x) : parse (strtrim s) = x := by
  cases h with
  | blank s h =>
    have : strtrim s = [] := by
      have := strtrim_of (a := s) (t := []) (b := []) h (by simp) ⟨by simp, by simp⟩
      simpa using this
    rw [this]; rfl
  | comment a t h =>
    rw [strtrim_lead _ h]
    obtain ⟨l, b, h1, -, -⟩ := strtrim_cons t (x := '#') (by simp [Blank])
    rw [h1]
    rfl
  | defn a k b c v d ha hb hc hd hk hk1 hk2 hk3 hv =>
    obtain ⟨y, d', he, hd', hl, hy⟩ : ∃ y d', c ++ v ++ d = y ++ d' ∧ (∀ x ∈ d', Blank x) ∧ (∀ x ∈ y.getLast?, ¬Blank x) ∧
        strtrim y = v := by
      by_cases h0 : v = []
      · subst h0
        refine ⟨[], c ++ d, by simp, ?_, by simp, rfl⟩
        intro x hx
        rcases List.mem_append.mp hx with h | h
        · exact hc x h
        · exact hd x h
      · refine ⟨c ++ v, d, rfl, hd, ?_, ?_⟩
        · rw [List.getLast?_append_of_ne_nil _ h0]; exact hv.2
        · have := strtrim_of (b := []) hc (by simp) hv
          simpa using this
    have e : a ++ k ++ b ++ '=' :: (c ++ v ++ d) = a ++ (k ++ b ++ '=' :: y) ++ d' := by rw [he]; simp
    have htr : Trimmed (k ++ b ++ '=' :: y) := by
      constructor
      · obtain ⟨x, l, rfl⟩ := List.exists_cons_of_ne_nil hk
        simpa using hk1.1 x (by simp)
      · rw [List.getLast?_append_of_ne_nil _ (by simp)]
        cases y with
        | nil => simp [Blank]
        | cons z y => rw [List.getLast?_cons_cons]; exact hl
    rw [e, strtrim_of ha hd' htr, parse_defn, hy]
    · have := strtrim_of (a := []) (by simp) hb hk1
      rw [List.nil_append] at this
      rw [this]
    · intro h
      rcases List.mem_append.mp h with h | h
      · exact hk2 h
      · exact blank_ne_eq (hb _ h) rfl
    · simp [hk]
    · obtain ⟨x, l, rfl⟩ := List.exists_cons_of_ne_nil hk
      simpa using hk3
  | noKey a t ha =>
    rw [strtrim_lead _ ha]
    obtain ⟨l, b, h1, -, -⟩ := strtrim_cons t (x := '=') (by simp [Blank])
    rw [h1]
    unfold parse
    simp
  | noEq s h1 h2 h3 =>
    obtain ⟨a, b, e, ha, hb, ht⟩ := strtrim_spec s
    cases hq : strtrim s with
    | nil =>
      rw [hq] at e
      refine absurd (fun c hc => ?_) h3
      rw [e, List.append_nil] at hc
      rcases List.mem_append.mp hc with h | h
      · exact ha c h
      · exact hb c h
    | cons x l =>
      rw [hq] at e
      have hx : x ≠ '#' := by
        rintro rfl
        exact h2 a (l ++ b) (by rw [e]; simp) ha
      have hno : '=' ∉ x :: l := by intro h; apply h1; rw [e]; simp only [List.mem_append]; exact Or.inl (Or.inr h)
      unfold parse
      dsimp only
      rw [if_neg hx, if_pos]
      right
      rw [List.takeWhile_eq_self_iff.mpr]
      intro c hc
      simp only [ne_eq, decide_eq_true_eq]
      rintro rfl
      exact hno hc

/-- Every line has a meaning. -/
theorem means_total (s : List Char) : ∃ x, Means s x := by
  obtain ⟨a, b, e, ha, hb, ht⟩ := strtrim_spec s
  cases hq : strtrim s with
  | nil =>
    refine ⟨.skip, .blank s (fun c hc => ?_)⟩
    rw [hq, List.append_nil] at e
    rw [e] at hc
    rcases List.mem_append.mp hc with h | h
    · exact ha c h
    · exact hb c h
  | cons x l =>
    rw [hq] at e ht
    have hxb : ¬Blank x := ht.1 x (by simp)
    by_cases hx : x = '#'
    · subst hx
      refine ⟨.skip, ?_⟩
      rw [e]
      have := Means.comment a (l ++ b) ha
      simpa using this
    · by_cases hm : '=' ∈ x :: l
      · obtain ⟨k0, v0, h1, h2⟩ := List.eq_append_cons_of_mem hm
        rw [h1] at e
        by_cases h0 : k0 = []
        · subst h0
          refine ⟨.bad, ?_⟩
          rw [e]
          have := Means.noKey a (v0 ++ b) ha
          simpa using this
        · obtain ⟨y, k1, rfl⟩ := List.exists_cons_of_ne_nil h0
          obtain rfl : y = x := by simpa using (congrArg List.head? h1).symm
          obtain ⟨l', b1, h3, h4, h5⟩ := strtrim_cons k1 hxb
          obtain ⟨-, -, -, -, -, h6⟩ := strtrim_spec (y :: k1)
          rw [h3] at h6
          obtain ⟨c, d, h7, h8, h9, h10⟩ := strtrim_spec (v0 ++ b)
          refine ⟨.defn (y :: l') (strtrim (v0 ++ b)), ?_⟩
          have := Means.defn a (y :: l') b1 c (strtrim (v0 ++ b)) d ha h5 h8 h9 (by simp) h6
            (by intro h; apply h2; rw [h4]; simp only [List.mem_cons, List.mem_append] at h ⊢; tauto)
            (by simpa using hx) h10
          rw [← h7] at this
          rw [e, h4]
          simpa using this
      · refine ⟨.bad, .noEq s ?_ ?_ ?_⟩
        · rw [e]
          simp only [List.mem_append, not_or]
          exact ⟨⟨fun h => blank_ne_eq (ha _ h) rfl, hm⟩, fun h => blank_ne_eq (hb _ h) rfl⟩
        · intro a2 t e2 h2
          have := means_parse (Means.comment a2 t h2)
          rw [← e2, hq] at this
          unfold parse at this
          dsimp only at this
          rw [if_neg hx] at this
          split at this <;> cases this
        · intro h2
          have := means_parse (Means.blank s h2)
          rw [hq] at this
          unfold parse at this
          dsimp only at this
          rw [if_neg hx] at this
          split at this <;> cases this

/-! ## The file -/

/-- Reading a line that is not too long. -/
theorem fgets_line : ∀ (n : ℕ) (s rest : List Char), '\n' ∉ s → s.length < n → fgets n (s ++ '\n' :: rest) = (s ++ ['\n'], rest)
  | 0, s, rest, _, h => by omega
  | n + 1, [], rest, _, _ => by simp [fgets]
  | n + 1, c :: s, rest, h, hl => by
    have hc : c ≠ '\n' := by rintro rfl; exact h (by simp)
    rw [List.cons_append, fgets, if_neg hc, fgets_line n s rest (fun hm => h (by simp [hm])) (by simpa using hl)]
    rfl

/-- Reading the last line, if it does not end with a newline. -/
theorem fgets_last : ∀ (n : ℕ) (s : List Char), '\n' ∉ s → s.length ≤ n → fgets n s = (s, [])
  | 0, [], _, _ => rfl
  | 0, c :: s, _, h => by simp at h
  | n + 1, [], _, _ => rfl
  | n + 1, c :: s, h, hl => by
    have hc : c ≠ '\n' := by rintro rfl; exact h (by simp)
    rw [fgets, if_neg hc, fgets_last n s (fun hm => h (by simp [hm])) (by simpa using hl)]

/-- What `readLoop` does after a line. -/
def next (x : Line) (rest : Params) : Params :=
  match x with
  | .skip => rest
  | .bad => []
  | .defn k v => (k, v) :: rest

theorem entries_cons (x : Line) (l : List Line) : entries (x :: l) = next x (entries l) := by cases x <;> rfl

theorem readLoop_step {s : List Char} (h : s ≠ []) :
    readLoop s = next (parse (strtrim (fgets 1999 s).1)) (readLoop (fgets 1999 s).2) := by
  obtain ⟨c, t, rfl⟩ := List.exists_cons_of_ne_nil h
  rw [readLoop]
  split <;> simp only [next, *]

theorem strtrim_trail (s : List Char) {b : List Char} (hb : ∀ c ∈ b, Blank c) : strtrim (s ++ b) = strtrim s := by
  obtain ⟨a, b', h1, h2, h3, h4⟩ := strtrim_spec s
  have e : s ++ b = a ++ strtrim s ++ (b' ++ b) := by rw [← List.append_assoc, ← h1]
  rw [e]
  refine strtrim_of h2 (fun c hc => ?_) h4
  rcases List.mem_append.mp hc with h | h
  · exact h3 c h
  · exact hb c h

/-- **C81** (what a line means): every line means exactly one of: nothing (blank, or a comment: its first character that is not a
blank, tab or newline is `#`), the definition of the trimmed text left of the first `=` as the trimmed text right of it, or nonsense
(nothing left of the first `=`, or no `=`). -/
theorem C81_line (s : List Char) : ∃ x, Means s x ∧ ∀ y, Means s y → y = x := by
  obtain ⟨x, h⟩ := means_total s
  exact ⟨x, h, fun y hy => (means_parse hy).symm.trans (means_parse h)⟩

/-- **C81** (what a file means): a file of lines of at most 1998 characters, with or without a newline after the last one, has the
definitions of its lines up to the first nonsensical one, in their order.  (A file that cannot be opened gives a null pointer.) -/
theorem C81_file_partial (lines : List (List Char)) (last : List Char) (ms : List Line) (x : Line)
    (hn : ∀ l ∈ lines, '\n' ∉ l ∧ l.length ≤ 1998) (hl : '\n' ∉ last ∧ last.length ≤ 1998)
    (hm : List.Forall₂ Means lines ms) (hx : Means last x) :
    openParams (some (lines.flatMap (fun l => l ++ ['\n']) ++ last)) = some (entries (ms ++ [x])) ∧ openParams none = none := by
  refine ⟨?_, rfl⟩
  show some (readLoop _) = _
  congr 1
  induction hm with
  | nil =>
    rw [List.flatMap_nil, List.nil_append, List.nil_append, entries_cons]
    by_cases h0 : last = []
    · subst h0
      have : x = .skip := by
        have := means_parse hx
        rw [← this]; rfl
      subst this
      rw [readLoop]; rfl
    · rw [readLoop_step h0, fgets_last 1999 last hl.1 (by omega), means_parse hx]
      rw [readLoop]; rfl
  | @cons l m ls ms h _ ih =>
    obtain ⟨h1, h2⟩ := hn l (by simp)
    rw [List.cons_append, entries_cons, ← ih (fun l hl => hn l (by simp [hl]))]
    have e : (l :: ls).flatMap (fun l => l ++ ['\n']) ++ last = l ++ '\n' :: (ls.flatMap (fun l => l ++ ['\n']) ++ last) := by simp
    rw [e, readLoop_step (by simp), fgets_line 1999 l _ h1 (by omega)]
    rw [strtrim_trail l (by simp [Blank]), means_parse h]

/-- Longer lines are taken apart: what follows the first 1999 characters is a line of its own. -/
theorem C81_long_line (s rest : List Char) (h : '\n' ∉ s) (hl : s.length = 1999) (x : Line) (hx : Means s x) :
    openParams (some (s ++ rest)) = some (next x (readLoop rest)) := by
  have key : ∀ (n : ℕ) (s rest : List Char), '\n' ∉ s → s.length = n → fgets n (s ++ rest) = (s, rest) := by
    intro n
    induction n with
    | zero =>
      intro s rest _ h0
      obtain rfl := List.length_eq_zero_iff.mp h0
      rfl
    | succ n ih =>
      intro s rest h h0
      cases s with
      | nil => simp at h0
      | cons c s =>
        have hc : c ≠ '\n' := by rintro rfl; exact h (by simp)
        rw [List.cons_append, fgets, if_neg hc, ih s rest (fun hm => h (by simp [hm])) (by simpa using h0)]
  show some (readLoop _) = _
  have hne : s ++ rest ≠ [] := by intro h0; have := congrArg List.length h0; rw [List.length_append, hl, List.length_nil] at this; omega
  rw [readLoop_step hne, key 1999 s rest h hl, means_parse hx]

/-! ## Looking up -/

/-- The first definition of a key. -/
def First (p : Params) (key v : List Char) : Prop := ∃ p1 p2, p = p1 ++ (key, v) :: p2 ∧ ∀ e ∈ p1, e.1 ≠ key

theorem locate_spec (key : List Char) : ∀ (p : Params) (m : ℤ),
    (∀ p1 v p2, p = p1 ++ (key, v) :: p2 → (∀ e ∈ p1, e.1 ≠ key) → locateFrom key p m = m + p1.length) ∧
    ((∀ e ∈ p, e.1 ≠ key) → locateFrom key p m = -1)
  | [], m => by
    refine ⟨fun p1 v p2 h => ?_, fun _ => rfl⟩
    have := congrArg List.length h
    simp at this
  | (k, w) :: p, m => by
    obtain ⟨h1, h2⟩ := locate_spec key p (m + 1)
    constructor
    · intro p1 v p2 h hn
      cases p1 with
      | nil =>
        simp only [List.nil_append, List.cons.injEq, Prod.mk.injEq] at h
        obtain ⟨⟨rfl, rfl⟩, rfl⟩ := h
        simp [locateFrom]
      | cons e p1 =>
        simp only [List.cons_append, List.cons.injEq] at h
        obtain ⟨rfl, h⟩ := h
        have hk : k ≠ key := hn (k, w) (by simp)
        rw [locateFrom, if_neg (fun h3 => hk h3.symm), h1 p1 v p2 h (fun e he => hn e (by simp [he]))]
        push_cast [List.length_cons]; ring
    · intro hn
      have hk : k ≠ key := hn (k, w) (by simp)
      rw [locateFrom, if_neg (fun h3 => hk h3.symm), h2 (fun e he => hn e (by simp [he]))]

theorem located {p : Params} {key v : List Char} (h : First p key v) :
    ∃ i : ℤ, 0 ≤ i ∧ locateParam (some p) key = ok i ∧ valueAt (some p) i = ok v := by
  obtain ⟨p1, p2, rfl, hn⟩ := h
  refine ⟨p1.length, by omega, ?_, ?_⟩
  · unfold locateParam
    dsimp only
    rw [(locate_spec key _ 0).1 p1 v p2 rfl hn, zero_add]
  · unfold valueAt
    dsimp only
    rw [rd_nat (show p1.length < (p1 ++ (key, v) :: p2).length by simp), ok_bind]
    simp

theorem not_located {p : Params} {key : List Char} (h : ∀ e ∈ p, e.1 ≠ key) : locateParam (some p) key = ok (-1) := by
  unfold locateParam
  dsimp only
  rw [(locate_spec key p 0).2 h]

/-- **C81** (texts): `getVarString` and `getVarStringMem` return the value of the first definition of the key, and report
an undefined key. -/
theorem C81_string (p : Params) (key : List Char) :
    (∀ v, First p key v → getVarString (some p) key = ok (0, some v)) ∧
    ((∀ e ∈ p, e.1 ≠ key) → getVarString (some p) key = ok (1, none)) := by
  constructor
  · intro v h
    obtain ⟨i, h0, h1, h2⟩ := located h
    unfold getVarString
    rw [h1, ok_bind, if_neg (by omega), h2, ok_bind]
  · intro h
    unfold getVarString
    rw [not_located h, ok_bind, if_pos (by norm_num)]

/-- **C81** (texts with a limit): with a buffer of the positive size that is passed as capacity, `getVarStringProt` never writes
behind it: a value with its terminating 0 that fits is stored at the start, another one and an undefined key are reported and the buffer is left alone. -/
theorem C81_string_prot (p : Params) (key buf : List Char) (h0 : 0 < buf.length) (h64 : buf.length < 2 ^ 64) :
    (∀ v, First p key v → v.length < buf.length →
      getVarStringProt (some p) key buf buf.length = ok (0, v ++ '\x00' :: buf.drop (v.length + 1))) ∧
    (∀ v, First p key v → buf.length ≤ v.length → getVarStringProt (some p) key buf buf.length = ok (1, buf)) ∧
    ((∀ e ∈ p, e.1 ≠ key) → getVarStringProt (some p) key buf buf.length = ok (1, buf)) := by
  have hc : ((buf.length : ℤ) - 1) % 2 ^ 64 = (buf.length : ℤ) - 1 := by
    have h' : (buf.length : ℤ) < 2 ^ 64 := by exact_mod_cast h64
    exact Int.emod_eq_of_lt (by omega) (by linarith)
  refine ⟨?_, ?_, ?_⟩
  · intro v h hl
    obtain ⟨i, hi, h1, h2⟩ := located h
    unfold getVarStringProt
    rw [h1, ok_bind, if_neg (by omega), h2, ok_bind, hc, if_neg (by omega)]
    unfold strcpy
    rw [if_pos (by omega), ok_bind]
  · intro v h hl
    obtain ⟨i, hi, h1, h2⟩ := located h
    unfold getVarStringProt
    rw [h1, ok_bind, if_neg (by omega), h2, ok_bind, hc, if_pos (by omega)]
  · intro h
    unfold getVarStringProt
    rw [not_located h, ok_bind, if_pos (by norm_num)]

/-- **C81** (texts with a limit, capacity 0): a capacity of 0 is no limit at all: every value is stored, behind the end of the
buffer. -/
theorem C81_string_prot_zero (p : Params) (key v : List Char) (h : First p key v) (hv : v.length < 2 ^ 64) :
    getVarStringProt (some p) key [] 0 = ub "write behind the buffer" := by
  obtain ⟨i, hi, h1, h2⟩ := located h
  have hv' : (v.length : ℤ) < 2 ^ 64 := by exact_mod_cast hv
  unfold getVarStringProt
  rw [h1, ok_bind, if_neg (by omega), h2, ok_bind, if_neg]
  · unfold strcpy
    rw [if_neg (by simp)]
    rfl
  · have : ((0 : ℕ) - 1 : ℤ) % 2 ^ 64 = 2 ^ 64 - 1 := by norm_num
    rw [this]
    linarith

/-! ## Numbers -/

/-- `t` is a decimal numeral of value `v`, possibly with a sign and with white space in front, and nothing behind the last digit. -/
def Number (t : List Char) (v : ℤ) : Prop := Str.Numeral t v ∧ ∀ c ∈ t.getLast?, '0' ≤ c ∧ c ≤ '9'

/-- The nearest number of 64 bits. -/
def clamp (v : ℤ) : ℤ := max (-2 ^ 63) (min (2 ^ 63 - 1) v)

theorem strtol_number {s : List Char} {v : ℤ} (h : Number s v) : strtol s = (clamp v, []) := by
  obtain ⟨h, hlast⟩ := h
  have hp := ((Str.C49_string_to_int v v s).1 v).mpr ⟨h, le_refl _, le_refl _⟩
  obtain ⟨p, hpd⟩ : ∃ p, p = Str.sign (s.dropWhile Str.space) := ⟨_, rfl⟩
  unfold Str.stringToInt at hp
  unfold strtol
  dsimp only at hp ⊢
  rw [← hpd] at hp ⊢
  have hds : p.2.takeWhile Str.digit ≠ [] := by
    intro h0
    rw [if_pos h0] at hp
    cases hp
  rw [if_neg hds] at hp ⊢
  by_cases hr : (p.2.dropWhile Str.digit).dropWhile Str.space = []
  · rw [if_pos hr] at hp
    have hv : (if p.1 = true then -((Str.val (p.2.takeWhile Str.digit) : ℕ) : ℤ) else (Str.val (p.2.takeWhile Str.digit) : ℤ)) = v := by
      by_cases hc : ¬(v ≤ (if p.1 = true then -((Str.val (p.2.takeWhile Str.digit) : ℕ) : ℤ) else (Str.val (p.2.takeWhile Str.digit) : ℤ)) ∧
          (if p.1 = true then -((Str.val (p.2.takeWhile Str.digit) : ℕ) : ℤ) else (Str.val (p.2.takeWhile Str.digit) : ℤ)) ≤ v)
      · rw [if_pos hc] at hp; cases hp
      · exact le_antisymm (not_not.mp hc).2 (not_not.mp hc).1
    rw [hv]
    have hrest : p.2.dropWhile Str.digit = [] := by
      by_contra hne
      have hsuf : p.2.dropWhile Str.digit <:+ s := by
        obtain ⟨sg, hsg, -⟩ := Str.sign_cases (s.dropWhile Str.space)
        have h1 : p.2 <:+ s.dropWhile Str.space := ⟨sg, by rw [hpd]; exact hsg.symm⟩
        exact ((List.dropWhile_suffix _).trans h1).trans (List.dropWhile_suffix _)
      obtain ⟨u, hu⟩ := hsuf
      obtain ⟨l, x, hlx⟩ : ∃ l x, p.2.dropWhile Str.digit = l ++ [x] :=
        ⟨_, _, (List.dropLast_append_getLast hne).symm⟩
      have hx : x ∈ s.getLast? := by rw [← hu, hlx, ← List.append_assoc]; simp
      have hw : Str.space x = true := List.dropWhile_eq_nil_iff.mp hr x (by rw [hlx]; simp)
      have hd : Str.digit x = true := (Str.digit_iff x).mpr (hlast x hx)
      rw [((Str.space_iff x).mp hw).not_digit] at hd
      cases hd
    rw [hrest]
    rfl
  · rw [if_neg hr, ite_self] at hp
    cases hp

theorem strtol_not {s : List Char} (h0 : s ≠ []) (h : ¬∃ v, Number s v) : (strtol s).2 ≠ [] := by
  intro hr
  apply h
  obtain ⟨p, hpd⟩ : ∃ p, p = Str.sign (s.dropWhile Str.space) := ⟨_, rfl⟩
  unfold strtol at hr
  dsimp only at hr
  rw [← hpd] at hr
  by_cases hds : p.2.takeWhile Str.digit = []
  · rw [if_pos hds] at hr
    exact absurd hr h0
  · rw [if_neg hds] at hr
    dsimp only at hr
    obtain ⟨w, hw⟩ : ∃ w : ℤ, w = (if p.1 = true then -((Str.val (p.2.takeWhile Str.digit) : ℕ) : ℤ) else
      (Str.val (p.2.takeWhile Str.digit) : ℤ)) := ⟨_, rfl⟩
    refine ⟨w, (((Str.C49_string_to_int w w s).1 w).mp ?_).1, ?_⟩
    · unfold Str.stringToInt
      dsimp only
      rw [← hpd, if_neg hds, ← hw, if_neg (by simp), hr]
      rfl
    · intro c hc
      have hp2 : p.2 = p.2.takeWhile Str.digit := by
        conv_lhs => rw [← List.takeWhile_append_dropWhile (p := Str.digit) (l := p.2), hr, List.append_nil]
      obtain ⟨sg, hsg, -⟩ := Str.sign_cases (s.dropWhile Str.space)
      rw [← hpd] at hsg
      have hne : p.2 ≠ [] := by intro h1; apply hds; rw [h1]; rfl
      have hs : s = s.takeWhile Str.space ++ (sg ++ p.2) := by rw [← hsg, List.takeWhile_append_dropWhile]
      rw [hs, List.getLast?_append_of_ne_nil _ (by simp [hne]), List.getLast?_append_of_ne_nil _ hne] at hc
      have hm : c ∈ p.2 := List.mem_of_getLast? hc
      rw [hp2] at hm
      exact (Str.digit_iff c).mp (List.mem_takeWhile_imp hm)

theorem getVar_spec (conv : ℤ → ℤ) (p : Params) (key : List Char) :
    (∀ t v, First p key t → Number t v → getVar conv (some p) key = ok (0, some (conv (clamp v)))) ∧
    (∀ t, First p key t → t ≠ [] → (¬∃ v, Number t v) → ∃ r, getVar conv (some p) key = ok (1, some r)) ∧
    (First p key [] ∨ (∀ e ∈ p, e.1 ≠ key) → getVar conv (some p) key = ok (1, none)) := by
  refine ⟨?_, ?_, ?_⟩
  · intro t v h hv
    obtain ⟨i, hi, h1, h2⟩ := located h
    have h0 : t ≠ [] := by
      rintro rfl
      obtain ⟨a, sg, ds, b, he, -, -, hd, -⟩ := hv.1
      simp at he
      exact hd he.2.2.1
    unfold getVar
    rw [h1, ok_bind, if_neg (by omega), h2, ok_bind, if_neg h0, strtol_number hv, if_neg (by simp)]
  · intro t h h0 hv
    obtain ⟨i, hi, h1, h2⟩ := located h
    refine ⟨conv (strtol t).1, ?_⟩
    unfold getVar
    rw [h1, ok_bind, if_neg (by omega), h2, ok_bind, if_neg h0, if_pos (strtol_not h0 hv)]
  · rintro (h | h)
    · obtain ⟨i, hi, h1, h2⟩ := located h
      unfold getVar
      rw [h1, ok_bind, if_neg (by omega), h2, ok_bind, if_pos rfl]
    · unfold getVar
      rw [not_located h, ok_bind, if_pos (by norm_num)]

/-- **C81** (numbers): if the first definition of the key is a numeral (nothing behind the last digit) of a value below `2^31` resp.
`2^63` in magnitude, `getVarInt` and `getVarLongLong` return that value; an undefined key, an empty value and everything that
is not a numeral is reported (an empty value and an undefined key leave the result alone). -/
theorem C81_number_partial (p : Params) (key : List Char) :
    (∀ t v, First p key t → Number t v →
      (-2 ^ 31 ≤ v ∧ v < 2 ^ 31 → getVarInt (some p) key = ok (0, some v)) ∧
      (-2 ^ 63 ≤ v ∧ v < 2 ^ 63 → getVarLongLong (some p) key = ok (0, some v))) ∧
    (∀ t, First p key t → t ≠ [] → (¬∃ v, Number t v) →
      (∃ r, getVarInt (some p) key = ok (1, some r)) ∧ ∃ r, getVarLongLong (some p) key = ok (1, some r)) ∧
    (First p key [] ∨ (∀ e ∈ p, e.1 ≠ key) →
      getVarInt (some p) key = ok (1, none) ∧ getVarLongLong (some p) key = ok (1, none)) := by
  have hcl : ∀ v : ℤ, -2 ^ 63 ≤ v → v < 2 ^ 63 → clamp v = v := by
    intro v h1 h2
    unfold clamp
    rw [min_eq_right (by linarith), max_eq_right h1]
  refine ⟨?_, ?_, ?_⟩
  · intro t v h hv
    refine ⟨fun hr => ?_, fun hr => ?_⟩
    · unfold getVarInt
      rw [(getVar_spec toInt p key).1 t v h hv, hcl v (by linarith) (by linarith)]
      unfold toInt
      rw [Int.emod_eq_of_lt (by linarith) (by linarith), add_sub_cancel_right]
    · unfold getVarLongLong
      rw [(getVar_spec id p key).1 t v h hv, hcl v hr.1 hr.2]
      rfl
  · exact fun t h h0 hv => ⟨(getVar_spec toInt p key).2.1 t h h0 hv, (getVar_spec id p key).2.1 t h h0 hv⟩
  · exact fun h => ⟨(getVar_spec toInt p key).2.2 h, (getVar_spec id p key).2.2 h⟩

/-- **C81** (numbers out of range): larger numerals are accepted as well: they are replaced by the nearest number of 64 bits, and
`getVarInt` then keeps the lowest 32 bits. -/
theorem C81_number_range (p : Params) (key t : List Char) (v : ℤ) (h : First p key t) (hv : Number t v) :
    getVarLongLong (some p) key = ok (0, some (clamp v)) ∧
    ∃ r, getVarInt (some p) key = ok (0, some r) ∧ -2 ^ 31 ≤ r ∧ r < 2 ^ 31 ∧ (2 ^ 32 : ℤ) ∣ r - clamp v := by
  refine ⟨(getVar_spec id p key).1 t v h hv, _, (getVar_spec toInt p key).1 t v h hv, ?_⟩
  unfold toInt
  generalize clamp v = w
  omega

/-- The full claim: an accepted number has the value that is written, and a line of the file is a line. -/
def C81_Full : Prop :=
  (∀ (p : Params) (key t : List Char) (v r : ℤ), First p key t → Number t v → getVarInt (some p) key = ok (0, some r) → r = v) ∧
  ∀ (lines : List (List Char)) (ms : List Line), (∀ l ∈ lines, '\n' ∉ l) → List.Forall₂ Means lines ms →
    openParams (some (lines.flatMap (fun l => l ++ ['\n']))) = some (entries ms)

/-- A comment of `n + 1` characters. -/
def comment (n : ℕ) : List Char := '#' :: List.replicate n 'x'

theorem comment_line (n : ℕ) : '\n' ∉ comment n ∧ (comment n).length = n + 1 := by
  constructor
  · unfold comment
    rw [List.mem_cons, not_or, List.mem_replicate]
    exact ⟨by decide, fun h => absurd h.2 (by decide)⟩
  · simp [comment]

/-- **C81** in full is false: `4294967297` is accepted as 1, and the end of a long comment is read as a definition. -/
theorem C81_full_refuted :
    (∃ (p : Params) (key t : List Char) (v r : ℤ), First p key t ∧ Number t v ∧ getVarInt (some p) key = ok (0, some r) ∧ r ≠ v) ∧
    ∃ (line : List Char), Means line .skip ∧ '\n' ∉ line ∧
      openParams (some (line ++ ['\n'])) = some [("a".toList, "1".toList)] := by
  constructor
  · refine ⟨[("n".toList, "4294967297".toList)], "n".toList, "4294967297".toList, 4294967297, 1, ⟨[], [], rfl, by simp⟩, ?_, ?_, by norm_num⟩
    · refine ⟨(((Str.C49_string_to_int 0 (2 ^ 40) _).1 _).mp ?_).1, ?_⟩
      · decide
      · intro c hc
        have : c = '7' := by simpa using hc.symm
        subst this
        decide
    · have hf : First [("n".toList, "4294967297".toList)] "n".toList "4294967297".toList := ⟨[], [], rfl, by simp⟩
      have hn : Number "4294967297".toList 4294967297 := by
        refine ⟨(((Str.C49_string_to_int 0 (2 ^ 40) _).1 _).mp ?_).1, ?_⟩
        · decide
        · intro c hc
          have : c = '7' := by simpa using hc.symm
          subst this
          decide
      have := (getVar_spec toInt _ _).1 _ _ hf hn
      unfold getVarInt
      rw [this]
      congr 3
  · refine ⟨comment 1998 ++ "a=1".toList, ?_, ?_, ?_⟩
    · exact Means.comment [] (List.replicate 1998 'x' ++ "a=1".toList) (by simp)
    · rw [List.mem_append, not_or]
      exact ⟨(comment_line _).1, by decide⟩
    · have hm : Means (comment 1998) .skip := Means.comment [] (List.replicate 1998 'x') (by simp)
      rw [List.append_assoc, C81_long_line (comment 1998) _ (comment_line _).1 (comment_line _).2 _ hm]
      have h1 := C81_file_partial ["a=1".toList] [] [.defn "a".toList "1".toList] .skip (by simp) (by simp)
        (by
          refine .cons ?_ .nil
          have := Means.defn [] "a".toList [] [] "1".toList [] (by simp) (by simp) (by simp) (by simp) (by simp)
            (by simp [Trimmed, Blank]) (by simp) (by simp) (by simp [Trimmed, Blank])
          simpa using this)
        (.blank [] (by simp))
      have h2 := Option.some.inj h1.1
      simp only [entries, List.singleton_append] at h2
      unfold next
      dsimp only
      simpa using h2

/-! ## A concrete case -/

/-- A small file: a comment, a number with blanks around it, a blank line, a second definition of the same key, and a line that is not
understood, before a last one. -/
example : openParams (some "# file\n  lmax =\t 12 \n\nlmax=13\nwhat\nmmax=4\n".toList) =
    some [("lmax".toList, "12".toList), ("lmax".toList, "13".toList)] := by
  have hd := Means.defn "  ".toList "lmax".toList " ".toList "\t ".toList "12".toList " ".toList (by simp [Blank]) (by simp [Blank])
    (by simp [Blank]) (by simp [Blank]) (by simp) (by simp [Trimmed, Blank]) (by simp) (by simp) (by simp [Trimmed, Blank])
  have hd2 := Means.defn [] "lmax".toList [] [] "13".toList [] (by simp [Blank]) (by simp [Blank])
    (by simp [Blank]) (by simp [Blank]) (by simp) (by simp [Trimmed, Blank]) (by simp) (by simp) (by simp [Trimmed, Blank])
  have hd3 := Means.defn [] "mmax".toList [] [] "4".toList [] (by simp [Blank]) (by simp [Blank])
    (by simp [Blank]) (by simp [Blank]) (by simp) (by simp [Trimmed, Blank]) (by simp) (by simp) (by simp [Trimmed, Blank])
  have h := C81_file_partial ["# file".toList, "  lmax =\t 12 ".toList, [], "lmax=13".toList, "what".toList, "mmax=4".toList] []
    [.skip, .defn "lmax".toList "12".toList, .skip, .defn "lmax".toList "13".toList, .bad, .defn "mmax".toList "4".toList] .skip
    (by decide) (by decide)
    (.cons (.comment [] " file".toList (by simp)) (.cons (by simpa using hd) (.cons (.blank [] (by simp)) (.cons (by simpa using hd2)
      (.cons (.noEq _ (by decide) ?_ ?_) (.cons (by simpa using hd3) .nil))))))
    (.blank [] (by simp))
  · simpa [entries] using h.1
  · intro a t he
    have := congrArg (fun l => '#' ∈ l) he
    simp at this
  · intro hb
    have := hb 'w' (by decide)
    simp [Blank] at this

/-- Looking up in it. -/
example : getVarInt (some [("lmax".toList, "12".toList), ("lmax".toList, "13".toList)]) "lmax".toList = ok (0, some 12) := by
  refine ((C81_number_partial _ _).1 "12".toList 12 ⟨[], [("lmax".toList, "13".toList)], rfl, by simp⟩ ?_).1 (by norm_num)
  refine ⟨(((Str.C49_string_to_int 0 100 _).1 _).mp (by decide)).1, ?_⟩
  intro c hc
  have : c = '2' := by simpa using hc.symm
  subst this
  decide

end Verif.Param
