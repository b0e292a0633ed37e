import Verif.Util.Str
import Mathlib.Data.Nat.Digits.Defs

/-!
# More about the text helpers (C49): exact descriptions of what is accepted

The specifications below (`White`, `Words`, `SameLetter`, `Numeral`) mention none of the model's helpers.
-/

namespace Verif.Str

open Res

/-- White space of the C locale. -/
def White (c : Char) : Prop := c = ' ' ∨ c = '\t' ∨ c = '\n' ∨ c = '\r' ∨ c = '\x0b' ∨ c = '\x0c'

theorem space_iff (c : Char) : space c = true ↔ White c := by
  simp [space, White, or_assoc]

theorem space_false_iff (c : Char) : space c = false ↔ ¬White c := by
  rw [← space_iff]; simp

/-- `ws` are the words of `s`: maximal runs of characters that are not white space. -/
inductive Words : List Char → List (List Char) → Prop
  | nil {g : List Char} : (∀ c ∈ g, White c) → Words g []
  | cons {g w rest : List Char} {ws : List (List Char)} : (∀ c ∈ g, White c) → w ≠ [] → (∀ c ∈ w, ¬White c) →
      (∀ c ∈ rest.head?, White c) → Words rest ws → Words (g ++ w ++ rest) (w :: ws)

theorem split_eq_nil {s : List Char} (h : ∀ c ∈ s, White c) : split s = [] := by
  rw [split]
  have : s.dropWhile space = [] := List.dropWhile_eq_nil_iff.mpr fun c hc => (space_iff c).mpr (h c hc)
  split
  · rfl
  · rename_i h'; rw [this] at h'; cases h'

theorem split_eq_cons {g w rest : List Char} (hg : ∀ c ∈ g, White c) (hw : w ≠ []) (hw' : ∀ c ∈ w, ¬White c)
    (hr : ∀ c ∈ rest.head?, White c) : split (g ++ w ++ rest) = w :: split rest := by
  obtain ⟨c, t, rfl⟩ := List.exists_cons_of_ne_nil hw
  have h1 : (g ++ (c :: t) ++ rest).dropWhile space = (c :: t) ++ rest := by
    rw [List.append_assoc, List.dropWhile_append_of_pos (fun x hx => (space_iff x).mpr (hg x hx)), List.cons_append,
      List.dropWhile_cons_of_neg]
    rw [space_iff]; exact hw' c (by simp)
  have h2 : ∀ x ∈ c :: t, (!space x) = true := by
    intro x hx
    rw [(space_false_iff x).mpr (hw' x hx)]; rfl
  have h3 : rest.takeWhile (fun c => !space c) = [] ∧ rest.dropWhile (fun c => !space c) = rest := by
    cases rest with
    | nil => simp
    | cons x r =>
      have hx : ¬(!space x) = true := by
        rw [(space_iff x).mpr (hr x (by simp))]; simp
      exact ⟨List.takeWhile_cons_of_neg hx, List.dropWhile_cons_of_neg hx⟩
  have h4 : ((c :: t) ++ rest).takeWhile (fun c => !space c) = c :: t := by
    rw [List.takeWhile_append_of_pos h2, h3.1, List.append_nil]
  have h5 : ((c :: t) ++ rest).dropWhile (fun c => !space c) = rest := by
    rw [List.dropWhile_append_of_pos h2, h3.2]
  rw [split]
  split
  · rename_i h'; rw [h1] at h'; cases h'
  · rename_i c' t' h'
    rw [h1] at h'
    rw [← h', h4, h5]

theorem split_words (s : List Char) : Words s (split s) := by
  induction hn : s.length using Nat.strong_induction_on generalizing s with
  | _ n ih =>
    by_cases h : ∀ c ∈ s, White c
    · rw [split_eq_nil h]; exact .nil h
    · set g := s.takeWhile space with hg
      set u := s.dropWhile space with hu
      set w := u.takeWhile (fun c => !space c) with hw
      set rest := u.dropWhile (fun c => !space c) with hrest
      have hs : s = g ++ w ++ rest := by
        rw [List.append_assoc, hw, hrest, List.takeWhile_append_dropWhile, hg, hu, List.takeWhile_append_dropWhile]
      have hune : u ≠ [] := by
        intro hu0
        apply h
        intro c hc
        exact (space_iff c).mp (List.dropWhile_eq_nil_iff.mp hu0 c hc)
      have hhead : space (u.head hune) = false := by
        have := List.head_dropWhile_not space (l := s) hune
        simpa using this
      have hwne : w ≠ [] := by
        obtain ⟨c, t, hct⟩ := List.exists_cons_of_ne_nil hune
        have hc : space c = false := by simpa [hct] using hhead
        rw [hw, hct, List.takeWhile_cons_of_pos (by simp [hc])]
        simp
      have a1 : ∀ c ∈ g, White c := fun c hc => (space_iff c).mp (List.mem_takeWhile_imp hc)
      have a2 : ∀ c ∈ w, ¬White c := fun c hc => (space_false_iff c).mp (by simpa using List.mem_takeWhile_imp hc)
      have a3 : ∀ c ∈ rest.head?, White c := by
        intro c hc
        have hne : rest ≠ [] := by rintro h0; rw [h0] at hc; simp at hc
        have := List.head_dropWhile_not (fun c => !space c) (l := u) hne
        rw [List.head?_eq_some_head hne] at hc
        simp only [Option.mem_def, Option.some.injEq] at hc
        rw [← space_iff, ← hc]
        simpa using this
      rw [hs, split_eq_cons a1 hwne a2 a3]
      refine .cons a1 hwne a2 a3 (ih rest.length ?_ rest rfl)
      have := List.length_pos_iff.mpr hwne
      have e := congrArg List.length hs
      simp only [List.length_append] at e
      omega

/-- **C49** `split` returns exactly the white-space separated words of a text. -/
theorem C49_split_words (s : List Char) (ws : List (List Char)) : split s = ws ↔ Words s ws := by
  constructor
  · rintro rfl; exact split_words s
  · intro h
    induction h with
    | nil hg => exact split_eq_nil hg
    | cons hg hw hw' hr _ ih => rw [split_eq_cons hg hw hw' hr, ih]

theorem not_white (c : Char) (h : space c = false) : ¬White c := (space_false_iff c).mp h

example : split "  ab\t c ".toList = ["ab".toList, "c".toList] := by
  rw [C49_split_words]
  exact .cons (g := "  ".toList) (w := "ab".toList) (rest := "\t c ".toList) (by simp [White]) (by simp) (by simp [White])
    (by simp [White]) (.cons (g := "\t ".toList) (w := "c".toList) (rest := " ".toList) (by simp [White]) (by simp)
      (by simp [White]) (by simp [White]) (.nil (by simp [White])))

/-! ## comparison without regard to case -/

/-- Equal up to the case of the 26 letters. -/
def SameLetter (x y : Char) : Prop :=
  x = y ∨ ∃ k < 26, (x = Char.ofNat (65 + k) ∧ y = Char.ofNat (97 + k)) ∨ (x = Char.ofNat (97 + k) ∧ y = Char.ofNat (65 + k))

theorem toNat_ofNat_small {n : ℕ} (h : n < 0xd800) : (Char.ofNat n).toNat = n := by
  have hv : n.isValidChar := Or.inl h
  rw [Char.ofNat, dif_pos hv]
  rfl

theorem lower_eq (c : Char) : lower c = if 65 ≤ c.toNat ∧ c.toNat ≤ 90 then Char.ofNat (c.toNat + 32) else c := by
  unfold lower
  have h : ('A' ≤ c ∧ c ≤ 'Z') ↔ (65 ≤ c.toNat ∧ c.toNat ≤ 90) := by
    rw [Char.le_def, Char.le_def, UInt32.le_iff_toNat_le, UInt32.le_iff_toNat_le]; rfl
  by_cases h' : 'A' ≤ c ∧ c ≤ 'Z'
  · rw [if_pos h', if_pos (h.mp h')]
  · rw [if_neg h', if_neg (fun x => h' (h.mpr x))]

theorem lower_eq_iff (x y : Char) : lower x = lower y ↔ SameLetter x y := by
  have inj : ∀ {a b : Char}, a.toNat = b.toNat → a = b := fun h => Char.ext (UInt32.toNat_inj.mp h)
  rw [lower_eq, lower_eq]
  constructor
  · intro h
    by_cases hx : 65 ≤ x.toNat ∧ x.toNat ≤ 90 <;> by_cases hy : 65 ≤ y.toNat ∧ y.toNat ≤ 90
    · rw [if_pos hx, if_pos hy] at h
      have := congrArg Char.toNat h
      rw [toNat_ofNat_small (by omega), toNat_ofNat_small (by omega)] at this
      exact Or.inl (inj (by omega))
    · rw [if_pos hx, if_neg hy] at h
      refine Or.inr ⟨x.toNat - 65, by omega, Or.inl ⟨inj ?_, ?_⟩⟩
      · rw [toNat_ofNat_small (by omega)]; omega
      · rw [← h]; congr 1; omega
    · rw [if_neg hx, if_pos hy] at h
      refine Or.inr ⟨y.toNat - 65, by omega, Or.inr ⟨?_, inj ?_⟩⟩
      · rw [h]; congr 1; omega
      · rw [toNat_ofNat_small (by omega)]; omega
    · rw [if_neg hx, if_neg hy] at h
      exact Or.inl h
  · rintro (rfl | ⟨k, hk, ⟨rfl, rfl⟩ | ⟨rfl, rfl⟩⟩)
    · rfl
    all_goals
      rw [toNat_ofNat_small (n := 65 + k) (by omega), toNat_ofNat_small (n := 97 + k) (by omega)]
    · rw [if_pos (by omega), if_neg (by omega)]; congr 1; omega
    · rw [if_neg (by omega), if_pos (by omega)]; congr 1; omega

/-- **C49** `equal_nocase` holds exactly if the strings have the same length and agree, character by character, up to the case of
letters. -/
theorem C49_equal_nocase_letters (a b : List Char) : equalNocase a b = true ↔ List.Forall₂ SameLetter a b := by
  rw [C49_equal_nocase]
  induction a generalizing b with
  | nil =>
    cases b with
    | nil => simp
    | cons y b => exact ⟨fun h => by simp at h, fun h => by cases h⟩
  | cons x a ih =>
    cases b with
    | nil => exact ⟨fun h => by simp at h, fun h => by cases h⟩
    | cons y b => rw [List.map_cons, List.map_cons, List.cons.injEq, lower_eq_iff, ih, List.forall₂_cons]

example : equalNocase "Lmax".toList "LMAX".toList = true ∧ equalNocase "lmax".toList "lmax1".toList = false := by decide

/-! ## integers -/

/-- `s` is a decimal numeral of value `v`, possibly signed and surrounded by white space. -/
def Numeral (s : List Char) (v : ℤ) : Prop :=
  ∃ a sg ds b, s = a ++ sg ++ ds ++ b ∧ (∀ c ∈ a, White c) ∧ (∀ c ∈ b, White c) ∧ ds ≠ [] ∧ (∀ c ∈ ds, '0' ≤ c ∧ c ≤ '9') ∧
    ((sg = ['-'] ∧ v = -(Nat.ofDigits 10 (ds.map (fun c => c.toNat - '0'.toNat)).reverse : ℕ)) ∨
     ((sg = [] ∨ sg = ['+']) ∧ v = (Nat.ofDigits 10 (ds.map (fun c => c.toNat - '0'.toNat)).reverse : ℕ)))

theorem val_eq (ds : List Char) : val ds = Nat.ofDigits 10 (ds.map (fun c => c.toNat - '0'.toNat)).reverse := by
  induction ds using List.reverseRecOn with
  | nil => rfl
  | append_singleton l c ih =>
    have e : val (l ++ [c]) = 10 * val l + (c.toNat - 48) := by simp [val]
    rw [e, ih, List.map_append, List.reverse_append, List.map_singleton, List.reverse_singleton, List.singleton_append,
      Nat.ofDigits_cons]
    have : '0'.toNat = 48 := rfl
    rw [this]
    push_cast
    ring

theorem digit_iff (c : Char) : digit c = true ↔ '0' ≤ c ∧ c ≤ '9' := by simp [digit]

theorem White.not_digit {c : Char} (h : White c) : digit c = false := by
  rcases h with rfl | rfl | rfl | rfl | rfl | rfl <;> decide

theorem sign_cases (u : List Char) : ∃ sg, u = sg ++ (sign u).2 ∧
    ((sg = ['-'] ∧ (sign u).1 = true) ∨ ((sg = [] ∨ sg = ['+']) ∧ (sign u).1 = false)) := by
  unfold sign
  split
  · exact ⟨['-'], rfl, Or.inl ⟨rfl, rfl⟩⟩
  · exact ⟨['+'], rfl, Or.inr ⟨Or.inr rfl, rfl⟩⟩
  · exact ⟨[], rfl, Or.inr ⟨Or.inl rfl, rfl⟩⟩

/-- **C49** The integer parser accepts exactly the decimal numerals whose value lies in the range of the type, and returns that
value; everything else is an error. -/
theorem C49_string_to_int (lo hi : ℤ) (s : List Char) :
    (∀ v, stringToInt lo hi s = ok v ↔ Numeral s v ∧ lo ≤ v ∧ v ≤ hi) ∧
    ((¬∃ v, Numeral s v ∧ lo ≤ v ∧ v ≤ hi) → (stringToInt lo hi s).IsThrow) := by
  have main : ∀ v, stringToInt lo hi s = ok v ↔ Numeral s v ∧ lo ≤ v ∧ v ≤ hi := by
    intro v
    constructor
    · intro h
      unfold stringToInt at h
      dsimp only at h
      generalize hw : (if (sign (List.dropWhile space s)).1 = true then
        -((val (List.takeWhile digit (sign (List.dropWhile space s)).2) : ℕ) : ℤ) else
        ((val (List.takeWhile digit (sign (List.dropWhile space s)).2) : ℕ) : ℤ)) = w at h
      split at h
      · cases h
      · rename_i hds
        split at h
        · cases h
        · rename_i hr
          split at h
          · rename_i hrest
            have hv := Res.ok.inj h
            subst hv
            obtain ⟨sg, hsg, hs⟩ := sign_cases (s.dropWhile space)
            refine ⟨⟨s.takeWhile space, sg, (sign (s.dropWhile space)).2.takeWhile digit,
              (sign (s.dropWhile space)).2.dropWhile digit, ?_, ?_, ?_, hds, ?_, ?_⟩, not_not.mp hr⟩
            · rw [List.append_assoc, List.append_assoc, List.takeWhile_append_dropWhile, ← hsg, List.takeWhile_append_dropWhile]
            · exact fun c hc => (space_iff c).mp (List.mem_takeWhile_imp hc)
            · intro c hc
              exact (space_iff c).mp (List.dropWhile_eq_nil_iff.mp hrest c hc)
            · exact fun c hc => (digit_iff c).mp (List.mem_takeWhile_imp hc)
            · rw [← val_eq]
              rcases hs with ⟨h1, h2⟩ | ⟨h1, h2⟩
              · left; rw [h2] at hw; exact ⟨h1, hw.symm⟩
              · right; rw [h2] at hw; exact ⟨h1, hw.symm⟩
          · cases h
    · rintro ⟨⟨a, sg, ds, b, rfl, ha, hb, hne, hd, hv⟩, hr⟩
      obtain ⟨x, t, rfl⟩ := List.exists_cons_of_ne_nil hne
      have hx := hd x (by simp)
      have hxd : digit x = true := (digit_iff x).mpr hx
      have hxs : space x = false := by
        rw [space_false_iff]; intro hw; rw [hw.not_digit] at hxd; cases hxd
      have e1 : (a ++ sg ++ (x :: t) ++ b).dropWhile space = sg ++ ((x :: t) ++ b) := by
        rw [List.append_assoc, List.append_assoc, List.dropWhile_append_of_pos (fun c hc => (space_iff c).mpr (ha c hc))]
        rcases hv with ⟨rfl, _⟩ | ⟨rfl | rfl, _⟩
        · rw [List.singleton_append, List.dropWhile_cons_of_neg (by decide)]
        · rw [List.nil_append, List.cons_append, List.dropWhile_cons_of_neg (by simp [hxs])]
        · rw [List.singleton_append, List.dropWhile_cons_of_neg (by decide)]
      have hm : x ≠ '-' := by rintro rfl; exact absurd hxd (by decide)
      have hp : x ≠ '+' := by rintro rfl; exact absurd hxd (by decide)
      have e2 : sign (sg ++ ((x :: t) ++ b)) = (decide (sg = ['-']), (x :: t) ++ b) := by
        rcases hv with ⟨rfl, _⟩ | ⟨rfl | rfl, _⟩
        · rfl
        · rw [List.nil_append, List.cons_append]
          unfold sign
          split
          · rename_i h; exact absurd (List.cons.inj h).1 hm
          · rename_i h; exact absurd (List.cons.inj h).1 hp
          · rfl
        · rfl
      have hb' : b.takeWhile digit = [] ∧ b.dropWhile digit = b := by
        cases b with
        | nil => simp
        | cons c r =>
          have : ¬digit c = true := by rw [(hb c (by simp)).not_digit]; simp
          exact ⟨List.takeWhile_cons_of_neg this, List.dropWhile_cons_of_neg this⟩
      have hd' : ∀ c ∈ x :: t, digit c = true := fun c hc => (digit_iff c).mpr (hd c hc)
      have e3 : ((x :: t) ++ b).takeWhile digit = x :: t := by
        rw [List.takeWhile_append_of_pos hd', hb'.1, List.append_nil]
      have e4 : ((x :: t) ++ b).dropWhile digit = b := by
        rw [List.dropWhile_append_of_pos hd', hb'.2]
      have e5 : b.dropWhile space = [] := List.dropWhile_eq_nil_iff.mpr fun c hc => (space_iff c).mpr (hb c hc)
      have e6 : (if decide (sg = ['-']) = true then -((val (x :: t) : ℕ) : ℤ) else (val (x :: t) : ℤ)) = v := by
        rw [val_eq]
        rcases hv with ⟨rfl, h⟩ | ⟨rfl | rfl, h⟩
        · rw [if_pos (by decide)]; exact h.symm
        · rw [if_neg (by decide)]; exact h.symm
        · rw [if_neg (by decide)]; exact h.symm
      unfold stringToInt
      dsimp only
      rw [e1, e2]
      dsimp only
      rw [e3, e4, e5, if_neg (by simp), e6, if_neg (not_not.mpr hr), if_pos rfl]
  refine ⟨main, fun hno => ?_⟩
  have hres : (∃ v, stringToInt lo hi s = ok v) ∨ (stringToInt lo hi s).IsThrow := by
    unfold stringToInt
    dsimp only
    generalize hw : (if (sign (List.dropWhile space s)).1 = true then
        -((val (List.takeWhile digit (sign (List.dropWhile space s)).2) : ℕ) : ℤ) else
        ((val (List.takeWhile digit (sign (List.dropWhile space s)).2) : ℕ) : ℤ)) = w
    split
    · exact Or.inr trivial
    · split
      · exact Or.inr trivial
      · split
        · exact Or.inl ⟨_, rfl⟩
        · exact Or.inr trivial
  rcases hres with ⟨v, hv⟩ | h
  · exact absurd ⟨v, (main v).mp hv⟩ hno
  · exact h

example : stringToInt (-2 ^ 31) (2 ^ 31 - 1) " -12 ".toList = ok (-12) := by decide
example : (stringToInt (-2 ^ 31) (2 ^ 31 - 1) "12a".toList).IsThrow := by
  unfold stringToInt; simp [sign, digit, space, val, Res.IsThrow]

/-! ## truth values -/

/-- **C49** The sixteen spellings of truth values that are accepted (no white space around them); everything else is an error. -/
theorem C49_string_to_bool (s : List Char) :
    (stringToBool s = ok true ↔ s = "T".toList ∨ s = "t".toList ∨ s = "y".toList ∨ s = "Y".toList ∨ s = "true".toList ∨
      s = ".true.".toList ∨ s = "TRUE".toList ∨ s = ".TRUE.".toList) ∧
    (stringToBool s = ok false ↔ s = "F".toList ∨ s = "f".toList ∨ s = "n".toList ∨ s = "N".toList ∨ s = "false".toList ∨
      s = ".false.".toList ∨ s = "FALSE".toList ∨ s = ".FALSE.".toList) ∧
    ((stringToBool s).IsThrow ↔ stringToBool s ≠ ok true ∧ stringToBool s ≠ ok false) := by
  unfold stringToBool
  refine ⟨?_, ?_, ?_⟩
  · constructor
    · intro h
      split at h
      · cases h
      · split at h
        · rename_i h'; simpa using h'
        · cases h
    · intro h
      rw [if_neg, if_pos]
      · simpa using h
      · rcases h with rfl | rfl | rfl | rfl | rfl | rfl | rfl | rfl <;> decide
  · constructor
    · intro h
      split at h
      · rename_i h'; simpa using h'
      · split at h
        · cases h
        · cases h
    · intro h
      rw [if_pos]
      simpa using h
  · split
    · simp [Res.IsThrow]
    · split <;> simp [Res.IsThrow]

end Verif.Str
