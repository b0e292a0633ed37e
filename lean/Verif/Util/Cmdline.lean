import Verif.Util.StrMore

/-!
# Parameter files and command lines (C49)

levels/cxxsupport/string_utils.cc:171-286.
-/

namespace Verif.Str

open Res

/-! ## lines of parameter files: exactly which lines define something -/

/-- `line` is `key = value`, blanks and tabs anywhere around key and value, possibly followed by a comment or a carriage return. -/
def Defines (line k v : List Char) : Prop :=
  ∃ b1 b2 b3 b4 rest, line = b1 ++ k ++ b2 ++ ['='] ++ b3 ++ v ++ b4 ++ rest ∧
    (∀ b ∈ [b1, b2, b3, b4], ∀ c ∈ b, c = ' ' ∨ c = '\t') ∧ k ≠ [] ∧
    (∀ c ∈ k.head?, c ≠ ' ' ∧ c ≠ '\t') ∧ (∀ c ∈ k.getLast?, c ≠ ' ' ∧ c ≠ '\t') ∧ '=' ∉ k ∧
    (∀ c ∈ v.head?, c ≠ ' ' ∧ c ≠ '\t') ∧ (∀ c ∈ v.getLast?, c ≠ ' ' ∧ c ≠ '\t') ∧
    ('#' ∉ k ∧ '\r' ∉ k) ∧ ('#' ∉ v ∧ '\r' ∉ v) ∧ (rest = [] ∨ ∃ r, rest = '#' :: r ∨ rest = '\r' :: r)

/-- the text before the first of two characters -/
theorem cut_spec (line : List Char) : ∃ core rest, line = core ++ rest ∧ '#' ∉ core ∧ '\r' ∉ core ∧
    (rest = [] ∨ ∃ r, rest = '#' :: r ∨ rest = '\r' :: r) ∧ cutAt '#' (cutAt '\r' line) = core := by
  induction line with
  | nil => exact ⟨[], [], rfl, by simp, by simp, Or.inl rfl, rfl⟩
  | cons c t ih =>
    by_cases h1 : c = '\r'
    · subst h1
      exact ⟨[], '\r' :: t, rfl, by simp, by simp, Or.inr ⟨t, Or.inr rfl⟩, by simp [cutAt]⟩
    · by_cases h2 : c = '#'
      · subst h2
        refine ⟨[], '#' :: t, rfl, by simp, by simp, Or.inr ⟨t, Or.inl rfl⟩, ?_⟩
        unfold cutAt
        rw [List.takeWhile_cons_of_pos (by decide)]
        simp
      · obtain ⟨core, rest, e, a, b, r, hc⟩ := ih
        refine ⟨c :: core, rest, by rw [e]; rfl, ?_, ?_, r, ?_⟩
        · simp only [List.mem_cons, not_or]; exact ⟨fun h => h2 h.symm, a⟩
        · simp only [List.mem_cons, not_or]; exact ⟨fun h => h1 h.symm, b⟩
        · unfold cutAt at hc ⊢
          rw [List.takeWhile_cons_of_pos (by simpa using h1), List.takeWhile_cons_of_pos (by simpa using h2), hc]

/-- One argument `key=value` of `parse_cmdline_equalsign`, string_utils.cc:260-280. -/
def parseArg (arg : List Char) : Option (List Char × List Char) :=
  let l := trim arg
  if l = [] then none
  else if '=' ∈ l then
    let key := trim (l.takeWhile (· ≠ '='))
    let value := trim ((l.dropWhile (· ≠ '=')).drop 1)
    if key = [] then none else some (key, value)
  else none

theorem parseLine_eq (line : List Char) : parseLine line = parseArg (cutAt '#' (cutAt '\r' line)) := rfl

/-- `arg` is `key=value`, with blanks and tabs anywhere around key and value. -/
def DefinesArg (arg k v : List Char) : Prop :=
  ∃ b1 b2 b3 b4, arg = b1 ++ k ++ b2 ++ ['='] ++ b3 ++ v ++ b4 ∧
    (∀ b ∈ [b1, b2, b3, b4], ∀ c ∈ b, c = ' ' ∨ c = '\t') ∧ k ≠ [] ∧
    (∀ c ∈ k.head?, c ≠ ' ' ∧ c ≠ '\t') ∧ (∀ c ∈ k.getLast?, c ≠ ' ' ∧ c ≠ '\t') ∧ '=' ∉ k ∧
    (∀ c ∈ v.head?, c ≠ ' ' ∧ c ≠ '\t') ∧ (∀ c ∈ v.getLast?, c ≠ ' ' ∧ c ≠ '\t')

theorem dropWhile_eq_cons {l : List Char} (h : '=' ∈ l) : ∃ t, l.dropWhile (· ≠ '=') = '=' :: t := by
  induction l with
  | nil => simp at h
  | cons c l ih =>
    by_cases hc : c = '='
    · subst hc; exact ⟨l, List.dropWhile_cons_of_neg (by simp)⟩
    · rw [List.dropWhile_cons_of_pos (by simpa using hc)]
      refine ih ?_
      rcases List.mem_cons.mp h with h | h
      · exact absurd h.symm hc
      · exact h

theorem parseArg_iff (arg k v : List Char) : parseArg arg = some (k, v) ↔ DefinesArg arg k v := by
  constructor
  · intro h
    unfold parseArg at h
    dsimp only at h
    obtain ⟨x, y, hxy, hx, hy, -, -⟩ := (C49_trim arg (trim arg)).mp rfl
    set l := trim arg
    split at h
    · cases h
    · split at h
      · rename_i hl heq
        obtain ⟨x1, x2, hx12, hx1, hx2, kh, kl⟩ := (C49_trim (l.takeWhile (· ≠ '=')) _).mp rfl
        obtain ⟨y1, y2, hy12, hy1, hy2, vh, vl⟩ := (C49_trim ((l.dropWhile (· ≠ '=')).drop 1) _).mp rfl
        split at h
        · cases h
        · rename_i hk
          have h' := Option.some.inj h
          obtain ⟨hk', hv'⟩ := Prod.mk.inj h'
          obtain ⟨t, hd⟩ := dropWhile_eq_cons heq
          have hl' : l = l.takeWhile (· ≠ '=') ++ '=' :: (l.dropWhile (· ≠ '=')).drop 1 := by
            conv_lhs => rw [← List.takeWhile_append_dropWhile (p := (· ≠ '=')) (l := l)]
            rw [hd]; rfl
          rw [hk'] at hx12 hk kh kl
          rw [hv'] at hy12 vh vl
          have hcore : arg = (x ++ x1) ++ k ++ x2 ++ ['='] ++ y1 ++ v ++ (y2 ++ y) := by
            rw [hxy, hl', hx12, hy12]
            simp
          refine ⟨x ++ x1, x2, y1, y2 ++ y, hcore, ?_, hk, kh, kl, ?_, vh, vl⟩
          · intro b hb c hc
            simp only [List.mem_cons, List.not_mem_nil, or_false] at hb
            rcases hb with rfl | rfl | rfl | rfl
            · rcases List.mem_append.mp hc with hc | hc
              · exact hx c hc
              · exact hx1 c hc
            · exact hx2 c hc
            · exact hy1 c hc
            · rcases List.mem_append.mp hc with hc | hc
              · exact hy2 c hc
              · exact hy c hc
          · intro hk0
            have : '=' ∈ l.takeWhile (· ≠ '=') := by rw [hx12]; simp [hk0]
            have := List.mem_takeWhile_imp this
            simp at this
      · cases h
  · rintro ⟨b1, b2, b3, b4, rfl, hb, hk, hkh, hkl, hke, hvh, hvl⟩
    obtain ⟨t, ht, hkt⟩ : ∃ t, trim (b1 ++ k ++ b2 ++ ['='] ++ b3 ++ v ++ b4) = k ++ b2 ++ ['='] ++ t ∧ IsTrim t v := by
      by_cases hv : v = []
      · refine ⟨[], ?_, ?_⟩
        · rw [C49_trim]
          refine ⟨b1, b3 ++ b4, by rw [hv]; simp, hb b1 (by simp), ?_, ?_, ?_⟩
          · intro c hc
            rcases List.mem_append.mp hc with hc | hc
            · exact hb b3 (by simp) c hc
            · exact hb b4 (by simp) c hc
          · obtain ⟨x, k', rfl⟩ := List.exists_cons_of_ne_nil hk
            simpa using hkh
          · simp
        · rw [hv]; exact ⟨[], [], by simp, by simp, by simp, by simp, by simp⟩
      · refine ⟨b3 ++ v, ?_, ?_⟩
        · rw [C49_trim]
          refine ⟨b1, b4, by simp, hb b1 (by simp), hb b4 (by simp), ?_, ?_⟩
          · obtain ⟨x, k', rfl⟩ := List.exists_cons_of_ne_nil hk
            simpa using hkh
          · intro c hc
            apply hvl
            rw [← List.append_assoc, List.getLast?_append_of_ne_nil _ hv] at hc
            exact hc
        · exact ⟨b3, [], by simp, hb b3 (by simp), by simp, hvh, hvl⟩
    have hkb : ∀ x ∈ k ++ b2, x ≠ '=' := by
      intro x hx
      rintro rfl
      rcases List.mem_append.mp hx with h | h
      · exact hke h
      · exact absurd (hb b2 (by simp) _ h) (by decide)
    unfold parseArg
    dsimp only
    rw [ht, if_neg (by simp), if_pos (by simp)]
    have e1 : (k ++ b2 ++ ['='] ++ t).takeWhile (· ≠ '=') = k ++ b2 := by
      rw [List.append_assoc, List.takeWhile_append_of_pos (by intro x hx; simpa using hkb x hx)]
      simp
    have e2 : (k ++ b2 ++ ['='] ++ t).dropWhile (· ≠ '=') = '=' :: t := by
      rw [List.append_assoc, List.dropWhile_append_of_pos (by intro x hx; simpa using hkb x hx)]
      simp
    have e3 : trim (k ++ b2) = k := (C49_trim _ _).mpr ⟨[], b2, by simp, by simp, hb b2 (by simp), hkh, hkl⟩
    rw [e1, e2, e3, if_neg hk, List.drop_one, List.tail_cons, (C49_trim t v).mpr hkt]

/-- **C49** Exactly the lines of the form `key = value # comment` define something, and they define that key to be that value; in
particular comments, empty lines, lines without `=` and lines with an empty key define nothing. -/
theorem C49_parse_line_iff (line k v : List Char) : parseLine line = some (k, v) ↔ Defines line k v := by
  constructor
  · intro h
    obtain ⟨core, rest, e, a, b, r, hc⟩ := cut_spec line
    rw [parseLine_eq, hc, parseArg_iff] at h
    obtain ⟨b1, b2, b3, b4, rfl, hb, hk, hkh, hkl, hke, hvh, hvl⟩ := h
    simp only [List.mem_append, not_or] at a b
    exact ⟨b1, b2, b3, b4, rest, e, hb, hk, hkh, hkl, hke, hvh, hvl, ⟨a.1.1.1.1.1.2, b.1.1.1.1.1.2⟩, ⟨a.1.2, b.1.2⟩, r⟩
  · rintro ⟨b1, b2, b3, b4, rest, rfl, hb, hk, hkh, hkl, hke, hvh, hvl, hkc, hvc, hr⟩
    exact C49_parse_line b1 b2 b3 b4 k v rest hb hk hkh hkl hke hvh hvl hkc hvc hr

/-- What a sequence of texts, each of which may define a key (`D`, decided by `P`), does to a dictionary: the last definition
counts. -/
theorem foldl_last {P : List Char → Option (List Char × List Char)} {D : List Char → List Char → List Char → Prop}
    (hP : ∀ l k v, P l = some (k, v) ↔ D l k v) (d0 : Dict) (lines : List (List Char)) (k v : List Char) :
    lines.foldl (fun (d : Dict) l => match P l with
      | some (k, v) => fun k' => if k' = k then some v else d k'
      | none => d) d0 k = some v ↔
      (∃ before line after, lines = before ++ line :: after ∧ D line k v ∧ ∀ l ∈ after, ∀ v', ¬D l k v') ∨
      ((∀ l ∈ lines, ∀ v', ¬D l k v') ∧ d0 k = some v) := by
  induction lines using List.reverseRecOn with
  | nil => simp
  | append_singleton pre l ih =>
    rw [List.foldl_append, List.foldl_cons, List.foldl_nil]
    by_cases hl : ∃ v', D l k v'
    · obtain ⟨v', hv'⟩ := hl
      rw [(hP l k v').mpr hv']
      simp only [if_true, Option.some.injEq]
      constructor
      · rintro rfl
        exact Or.inl ⟨pre, l, [], rfl, hv', by simp⟩
      · rintro (⟨before, line, after, e, hd, hno⟩ | ⟨h, _⟩)
        · rcases List.eq_nil_or_concat after with rfl | ⟨after', x, rfl⟩
          · have := List.append_inj' e rfl
            have hx : l = line := by simpa using this.2
            rw [← hx] at hd
            have := (hP l k v).mpr hd
            rw [(hP l k v').mpr hv'] at this
            simpa using this
          · exfalso
            rw [List.concat_eq_append] at e hno
            have e' : pre ++ [l] = (before ++ line :: after') ++ [x] := by rw [e]; simp
            have := List.append_inj' e' rfl
            have hx : l = x := by simpa using this.2
            exact hno x (by simp) v' (hx ▸ hv')
        · exact absurd hv' (h l (by simp) v')
    · have hst : ∀ d : Dict, (match P l with
          | some (k, v) => fun k' => if k' = k then some v else d k'
          | none => d) k = d k := by
        intro d
        cases hp : P l with
        | none => rfl
        | some q =>
          obtain ⟨k', v'⟩ := q
          have hne : k ≠ k' := by
            rintro rfl
            exact hl ⟨v', (hP l k v').mp hp⟩
          simp [hne]
      rw [hst]
      refine ih.trans ⟨?_, ?_⟩
      · rintro (⟨before, line, after, rfl, hd, hno⟩ | ⟨h1, h2⟩)
        · refine Or.inl ⟨before, line, after ++ [l], by simp, hd, fun x hx v' hv' => ?_⟩
          rcases List.mem_append.mp hx with hx | hx
          · exact hno x hx v' hv'
          · have : x = l := by simpa using hx
            exact hl ⟨v', this ▸ hv'⟩
        · refine Or.inr ⟨fun x hx v' hv' => ?_, h2⟩
          rcases List.mem_append.mp hx with hx | hx
          · exact h1 x hx v' hv'
          · have : x = l := by simpa using hx
            exact hl ⟨v', this ▸ hv'⟩
      · rintro (⟨before, line, after, e, hd, hno⟩ | ⟨h1, h2⟩)
        · rcases List.eq_nil_or_concat after with rfl | ⟨after', x, rfl⟩
          · have := List.append_inj' e rfl
            have hx : l = line := by simpa using this.2
            exact absurd ⟨v, hx ▸ hd⟩ hl
          · rw [List.concat_eq_append] at e hno
            have e' : pre ++ [l] = (before ++ line :: after') ++ [x] := by rw [e]; simp
            have := List.append_inj' e' rfl
            exact Or.inl ⟨before, line, after', this.1, hd, fun y hy => hno y (by simp [hy])⟩
        · exact Or.inr ⟨fun x hx => h1 x (by simp [hx]), h2⟩

/-- **C49** A parameter file gives a key the value of the last line that defines it, and contains no other keys. -/
theorem C49_parse_file (lines : List (List Char)) (k v : List Char) :
    parseFile lines k = some v ↔
      ∃ before line after, lines = before ++ line :: after ∧ Defines line k v ∧ ∀ l ∈ after, ∀ v', ¬Defines l k v' := by
  refine (foldl_last C49_parse_line_iff (fun _ => none) lines k v).trans ?_
  simp

example : parseFile ["lmax = 10".toList, "# lmax = 11".toList, "lmax=12 # x".toList, "mmax".toList] "lmax".toList =
    some "12".toList := by decide

/-! ## command lines -/

/-- `isParam`, string_utils.cc:213-218. -/
def isParam : List Char → Bool
  | '-' :: c :: _ => !(digit c || c = '.')
  | _ => false

/-- `dict[k] = v` -/
def Dict.set (d : Dict) (k v : List Char) : Dict := fun k' => if k' = k then some v else d k'

/-- The loop of `parse_cmdline_classic`, string_utils.cc:229-244; the arguments from `curarg` on. -/
def classicGo : List (List Char) → Dict → Res Dict
  | [], d => ok d
  | [p], d => if isParam p then ok (d.set (p.drop 1) "true".toList) else throw "unrecognized command line format"
  | p :: q :: t, d =>
    if isParam p then
      if isParam q then classicGo (q :: t) (d.set (p.drop 1) "true".toList) else classicGo t (d.set (p.drop 1) q)
    else throw "unrecognized command line format"

/-- The loop over `leading_args`, string_utils.cc:227-228 and 256-257. -/
def leadGo : List (List Char) → List (List Char) → Dict → Dict
  | k :: ks, a :: as, d => leadGo ks as (d.set k a)
  | _, _, d => d

/-- `parse_cmdline_classic`, string_utils.cc:222-245; `args` are `argv[1..argc-1]`. -/
def parseClassic (args leading : List (List Char)) : Res Dict :=
  if leading.length ≤ args.length then classicGo (args.drop leading.length) (leadGo leading args (fun _ => none))
  else throw "not enough arguments"

/-- `parse_cmdline_equalsign`, string_utils.cc:251-282. -/
def parseEqualsign (args leading : List (List Char)) : Res Dict :=
  if leading.length ≤ args.length then
    ok ((args.drop leading.length).foldl (fun (d : Dict) a => match parseArg a with
      | some (k, v) => fun k' => if k' = k then some v else d k'
      | none => d) (leadGo leading args (fun _ => none)))
  else throw "not enough arguments"

/-- An option on the command line: a switch or an option with a value. -/
inductive Opt
  | flag (k : List Char)
  | val (k v : List Char)

/-- How it is written. -/
def Opt.write : Opt → List (List Char)
  | .flag k => ['-' :: k]
  | .val k v => ['-' :: k, v]

/-- Option names that can be recognised: not empty, and the first character is neither a digit nor a dot. -/
def GoodKey (k : List Char) : Prop := ∃ c t, k = c :: t ∧ ¬('0' ≤ c ∧ c ≤ '9') ∧ c ≠ '.'

/-- Values that are not mistaken for an option: they do not begin with `-`, or they look like a negative number. -/
def GoodVal (v : List Char) : Prop := ∀ c t, v = '-' :: c :: t → ('0' ≤ c ∧ c ≤ '9') ∨ c = '.'

def Opt.Good : Opt → Prop
  | .flag k => GoodKey k
  | .val k v => GoodKey k ∧ GoodVal v

/-- The setting the option makes. -/
def Opt.set (d : Dict) : Opt → Dict
  | .flag k => d.set k "true".toList
  | .val k v => d.set k v

theorem isParam_key {k : List Char} (h : GoodKey k) : isParam ('-' :: k) = true := by
  obtain ⟨c, t, rfl, h1, h2⟩ := h
  have : digit c = false := by
    cases hd : digit c with
    | false => rfl
    | true => exact absurd ((digit_iff c).mp hd) h1
  simp [isParam, this, h2]

theorem isParam_val {v : List Char} (h : GoodVal v) : isParam v = false := by
  unfold isParam
  split
  · rename_i c t
    rcases h c t rfl with h | h
    · simp [(digit_iff c).mpr h]
    · simp [h]
  · rfl

theorem classic_opts (os : List Opt) (h : ∀ o ∈ os, o.Good) (d : Dict) :
    classicGo (os.flatMap Opt.write) d = ok (os.foldl Opt.set d) := by
  induction os generalizing d with
  | nil => rfl
  | cons o os ih =>
    have ho := h o (by simp)
    have hos : ∀ o ∈ os, o.Good := fun x hx => h x (by simp [hx])
    cases o with
    | val k v =>
      rw [List.flatMap_cons, List.foldl_cons]
      show classicGo (('-' :: k) :: v :: os.flatMap Opt.write) d = _
      rw [classicGo, if_pos (isParam_key ho.1), if_neg (by rw [isParam_val ho.2]; simp)]
      exact ih hos _
    | flag k =>
      rw [List.flatMap_cons, List.foldl_cons]
      show classicGo (('-' :: k) :: os.flatMap Opt.write) d = _
      cases os with
      | nil => rw [List.flatMap_nil, classicGo, if_pos (isParam_key ho)]; rfl
      | cons o' os' =>
        have ho' := hos o' (by simp)
        obtain ⟨k', t', e, hk'⟩ : ∃ k' t', (o' :: os').flatMap Opt.write = ('-' :: k') :: t' ∧ GoodKey k' := by
          cases o' with
          | flag k' => exact ⟨k', os'.flatMap Opt.write, rfl, ho'⟩
          | val k' v' => exact ⟨k', v' :: os'.flatMap Opt.write, rfl, ho'.1⟩
        rw [e, classicGo, if_pos (isParam_key ho), if_pos (isParam_key hk'), ← e]
        exact ih hos _

theorem leadGo_append (ks : List (List Char)) (as bs : List (List Char)) (d : Dict) (h : ks.length = as.length) :
    leadGo ks (as ++ bs) d = (ks.zip as).foldl (fun d p => d.set p.1 p.2) d := by
  induction ks generalizing as d with
  | nil => cases as <;> simp [leadGo] at h ⊢
  | cons k ks ih =>
    cases as with
    | nil => simp at h
    | cons a as => exact ih as _ (by simpa using h)

/-- **C49** The classic command line: leading arguments and any sequence of options, written in the usual way, are read back as
written; an option without value has the value `true`, later settings override earlier ones.  Values may be negative numbers. -/
theorem C49_cmdline_classic (leading vals : List (List Char)) (os : List Opt) (hl : leading.length = vals.length)
    (h : ∀ o ∈ os, o.Good) :
    parseClassic (vals ++ os.flatMap Opt.write) leading =
      ok (os.foldl Opt.set ((leading.zip vals).foldl (fun d p => d.set p.1 p.2) (fun _ => none))) := by
  unfold parseClassic
  rw [if_pos (by rw [List.length_append]; omega), leadGo_append _ _ _ _ hl, hl, List.drop_left, classic_opts os h]

/-- **C49** Command lines that are not of this form are errors, not guesses: if the call returns, the arguments after the leading
ones are the written form of a sequence of options with good names and values. -/
theorem C49_cmdline_classic_only (args leading : List (List Char)) (d : Dict) (h : parseClassic args leading = ok d) :
    leading.length ≤ args.length ∧ ∃ os : List Opt, (∀ o ∈ os, o.Good) ∧ args.drop leading.length = os.flatMap Opt.write := by
  unfold parseClassic at h
  split at h
  · rename_i hl
    refine ⟨hl, ?_⟩
    generalize args.drop leading.length = as at h
    generalize leadGo leading args (fun _ => none) = d0 at h
    have key : ∀ p, isParam p = true → ∃ k, p = '-' :: k ∧ GoodKey k := by
      intro p hp
      unfold isParam at hp
      split at hp
      · rename_i c t
        simp only [Bool.not_eq_true', Bool.or_eq_false_iff, decide_eq_false_iff_not] at hp
        exact ⟨c :: t, rfl, c, t, rfl, fun hd => by rw [(digit_iff c).mpr hd] at hp; simp at hp, hp.2⟩
      · cases hp
    have kv : ∀ p, isParam p ≠ true → GoodVal p := by
      rintro p hp c t rfl
      by_contra hc
      push Not at hc
      exact hp (isParam_key ⟨c, t, rfl, fun hd => by exact absurd hd.2 (by simpa using hc.1 hd.1), hc.2⟩)
    induction hn : as.length using Nat.strong_induction_on generalizing as d0 with
    | _ n ih =>
      cases as with
      | nil => exact ⟨[], by simp, rfl⟩
      | cons p t =>
        cases t with
        | nil =>
          rw [classicGo] at h
          split at h
          · rename_i hp
            obtain ⟨k, rfl, hk⟩ := key p hp
            exact ⟨[.flag k], by simpa [Opt.Good] using hk, rfl⟩
          · cases h
        | cons q t =>
          rw [classicGo] at h
          split at h
          · rename_i hp
            obtain ⟨k, rfl, hk⟩ := key p hp
            split at h
            · obtain ⟨os, h1, h2⟩ := ih (q :: t).length (by simp at hn ⊢; omega) _ _ h rfl
              exact ⟨.flag k :: os, by simpa [Opt.Good] using ⟨hk, h1⟩, by rw [List.flatMap_cons, ← h2]; rfl⟩
            · rename_i hq
              obtain ⟨os, h1, h2⟩ := ih t.length (by simp at hn; omega) _ _ h rfl
              exact ⟨.val k q :: os, by simpa [Opt.Good] using ⟨⟨hk, kv q hq⟩, h1⟩, by rw [List.flatMap_cons, ← h2]; rfl⟩
          · cases h
  · cases h

/-- **C49** The other style of command line: after the leading arguments, a key has the value of the last argument `key=value`
that names it; without such an argument it has the value of the last leading argument of that name, if any. -/
theorem C49_cmdline_equalsign (leading vals args : List (List Char)) (hl : leading.length = vals.length) :
    ∃ d, parseEqualsign (vals ++ args) leading = ok d ∧ ∀ k v, d k = some v ↔
      (∃ before a after, args = before ++ a :: after ∧ DefinesArg a k v ∧ ∀ l ∈ after, ∀ v', ¬DefinesArg l k v') ∨
      ((∀ l ∈ args, ∀ v', ¬DefinesArg l k v') ∧
        (leading.zip vals).foldl (fun d p => Dict.set d p.1 p.2) (fun _ => none) k = some v) := by
  unfold parseEqualsign
  rw [if_pos (by rw [List.length_append]; omega), leadGo_append _ _ _ _ hl, hl, List.drop_left]
  exact ⟨_, rfl, fun k v => foldl_last parseArg_iff _ args k v⟩

/-- **C49** Too few arguments are an error. -/
theorem C49_cmdline_missing (args leading : List (List Char)) (h : args.length < leading.length) :
    (parseClassic args leading).IsThrow ∧ (parseEqualsign args leading).IsThrow := by
  unfold parseClassic parseEqualsign
  rw [if_neg (by omega), if_neg (by omega)]
  exact ⟨trivial, trivial⟩

example : (Opt.val "fwhm".toList "-3.5".toList).Good :=
  ⟨⟨'f', "whm".toList, rfl, by decide, by decide⟩, by rintro c t h; simp at h; rw [← h.1]; exact Or.inl (by decide)⟩

end Verif.Str
