import Verif.Py.Errors

/-!
# C67: what the C library receives from a Python call

python/libconviqt_wrapper/__init__.py declares, for every C function it uses, the types of the arguments and of the result
(`argtypes`, `restype`) and passes Python values; ctypes converts them to machine words, the C function reads the words with the
types of its prototype (src/cconviqt.h).  A word that is narrower than what the function reads, or sits in the wrong kind of
register, is undefined behaviour.

Platform: LP64 (`long` and pointers have 64 bits, `int` 32) with signed `char`; `MPI_Comm` is an `int` (MPICH) or a pointer
(Open MPI).  Simplifications: a character is a byte; an integer passed for a `double` is rounded by `rnd` (Python raises for
integers beyond the range of doubles).
-/

namespace Verif.Ctypes
open Verif Res Verif.CApi Verif.Py Verif.Obj Verif.Spmd

/-- Types in the prototypes, src/cconviqt.h. -/
inductive CTy where
  | ptr | long | int | char | double | comm
  deriving DecidableEq

/-- Types in the declarations, __init__.py: `ct.c_void_p`, `ct.c_long`, `ct.c_int`, `ct.c_byte`, `ct.c_double`, `ct.c_char_p`,
`ct.POINTER(ct.c_double)`, `MPI_Comm`. -/
inductive PyTy where
  | voidp | long | int | byte | double | charp | doublep | comm
  deriving DecidableEq

structure Plat where
  /-- `MPI_Comm` is an `int` -/
  commInt : Bool
  /-- Python integer to C double -/
  rnd : ℤ → ℝ

/-- Python values that occur as arguments: `None`, `int` (and `bool`), `float`, `bytes`, the address of a buffer
(`ct.byref(eps)`, `create_string_buffer`), an `MPI_Comm` object (`encode_comm`, __init__.py:44-46). -/
inductive PV where
  | none | int (n : ℤ) | float (x : ℝ) | bytes (s : List Char) | ref (a : ℕ) | comm (h : ℕ)

/-- What a register holds: the low `w` bits of an integer register, a double, or the address of a zero-terminated copy of a
byte string. -/
inductive Word where
  | int (w : ℕ) (bits : ℕ) | dbl (x : ℝ) | str (s : List Char)

/-- What a C parameter of a function contains. -/
inductive CV where
  | int (n : ℤ) | dbl (x : ℝ) | addr (a : ℕ) | str (s : List Char) | comm (h : ℕ)

/-- ctypes integers: no overflow checking, the low bits are taken. -/
def low (w : ℕ) (n : ℤ) : ℕ := (n % 2 ^ w).toNat

/-- Value of a two's complement number of `w` bits. -/
def signed (w : ℕ) (bits : ℕ) : ℤ := if 2 * bits < 2 ^ w then bits else (bits : ℤ) - 2 ^ w

/-- Conversion of a Python argument for a declared type (ctypes `from_param`); the choice of `MPI_Comm` is
__init__.py:33-37. -/
def marshal (p : Plat) : PyTy → PV → Res Word
  | .voidp, .none => ok (.int 64 0)
  | .voidp, .int n => ok (.int 64 (low 64 n))
  | .voidp, .bytes s => ok (.str s)
  | .long, .int n => ok (.int 64 (low 64 n))
  | .int, .int n => ok (.int 32 (low 32 n))
  | .byte, .int n => ok (.int 8 (low 8 n))
  | .double, .float x => ok (.dbl x)
  | .double, .int n => ok (.dbl (p.rnd n))
  | .charp, .bytes s => ok (.str s)
  | .charp, .ref a => ok (.int 64 a)
  | .charp, .none => ok (.int 64 0)
  | .doublep, .ref a => ok (.int 64 a)
  | .doublep, .none => ok (.int 64 0)
  | .comm, .comm h => ok (if p.commInt then .int 32 h else .int 64 h)
  | _, _ => throw "ctypes.ArgumentError"

/-- Reading a parameter with the type of the prototype; text ends at the first zero byte. -/
def read (p : Plat) : CTy → Word → Res CV
  | .ptr, .int w b => if 64 ≤ w then ok (.addr b) else ub "upper half of a pointer"
  | .ptr, .str s => ok (.str (s.takeWhile (· ≠ Char.ofNat 0)))
  | .long, .int w b => if 64 ≤ w then ok (.int (signed 64 (b % 2 ^ 64))) else ub "upper half of a long"
  | .int, .int w b => if 32 ≤ w then ok (.int (signed 32 (b % 2 ^ 32))) else ub "upper part of an int"
  | .char, .int w b => if 8 ≤ w then ok (.int (signed 8 (b % 2 ^ 8))) else ub "char"
  | .double, .dbl x => ok (.dbl x)
  | .comm, .int w b => if (if p.commInt then 32 else 64) ≤ w then ok (.comm b) else ub "upper half of a communicator"
  | _, _ => ub "wrong kind of register"

/-- Prototypes: parameters and result, src/cconviqt.h:13-89 (`conviqt_detector_set_id` is defined, src/cconviqt.cpp:225-233, but
not declared in the header). -/
def proto : Fn → List CTy × CTy
  | .beam_new => ([], .ptr)                                                          -- :13
  | .beam_del => ([.ptr], .int)                                                      -- :15
  | .beam_read => ([.ptr, .long, .long, .char, .ptr, .comm], .int)                   -- :17-18
  | .beam_lmax => ([.ptr], .int)                                                     -- :20
  | .beam_mmax => ([.ptr], .int)                                                     -- :22
  | .beam_normalize => ([.ptr], .double)                                             -- :24
  | .beam_normalized => ([.ptr], .int)                                               -- :26
  | .beam_Tdata => ([.ptr], .ptr)                                                    -- :28
  | .beam_Gdata => ([.ptr], .ptr)                                                    -- :29
  | .beam_Cdata => ([.ptr], .ptr)                                                    -- :30
  | .sky_new => ([], .ptr)                                                           -- :34
  | .sky_del => ([.ptr], .int)                                                       -- :36
  | .sky_read => ([.ptr, .long, .char, .ptr, .double, .comm], .int)                  -- :38-39
  | .sky_lmax => ([.ptr], .int)                                                      -- :41
  | .sky_remove_monopole => ([.ptr], .int)                                           -- :43
  | .sky_remove_dipole => ([.ptr], .int)                                             -- :45
  | .sky_Tdata => ([.ptr], .ptr)                                                     -- :47
  | .sky_Gdata => ([.ptr], .ptr)                                                     -- :48
  | .sky_Cdata => ([.ptr], .ptr)                                                     -- :49
  | .detector_new => ([], .ptr)                                                      -- :53
  | .detector_new_with_id => ([.ptr], .ptr)                                          -- :55
  | .detector_del => ([.ptr], .int)                                                  -- :57
  | .detector_set_epsilon => ([.ptr, .double], .int)                                 -- :59
  | .detector_get_epsilon => ([.ptr, .ptr], .int)                                    -- :61
  | .detector_set_id => ([.ptr, .ptr], .int)
  | .detector_get_id => ([.ptr, .ptr], .int)                                         -- :63
  | .pointing_new => ([], .ptr)                                                      -- :67
  | .pointing_del => ([.ptr], .int)                                                  -- :69
  | .pointing_alloc => ([.ptr, .long], .int)                                         -- :71
  | .pointing_data => ([.ptr], .ptr)                                                 -- :73
  | .convolver_new => ([.ptr, .ptr, .ptr, .char, .long, .long, .long, .int, .comm], .ptr)   -- :77-79
  | .convolver_del => ([.ptr], .int)                                                 -- :81
  | .convolver_set_sky => ([.ptr, .ptr], .int)                                       -- :83
  | .convolver_set_beam => ([.ptr, .ptr], .int)                                      -- :85
  | .convolver_set_detector => ([.ptr, .ptr], .int)                                  -- :87
  | .convolver_convolve => ([.ptr, .ptr, .char], .int)                               -- :89

/-- `argtypes` and `restype`, __init__.py:48-433; `none`: not declared (and not used by the Python classes). -/
def decl : Fn → Option (List PyTy × PyTy)
  | .beam_new => some ([], .voidp)                                                    -- :50-51
  | .beam_del => some ([.voidp], .int)                                                -- :53-54
  | .beam_read => some ([.voidp, .long, .long, .byte, .charp, .comm], .int)           -- :56-64
  | .beam_lmax => some ([.voidp], .int)                                               -- :66-67
  | .beam_mmax => some ([.voidp], .int)                                               -- :69-70
  | .beam_normalize => some ([.voidp], .double)                                       -- :72-73
  | .beam_normalized => some ([.voidp], .int)                                         -- :75-76
  | .beam_Tdata => some ([.voidp], .voidp)                                            -- :78-79
  | .beam_Gdata => some ([.voidp], .voidp)                                            -- :81-82
  | .beam_Cdata => some ([.voidp], .voidp)                                            -- :84-85
  | .sky_new => some ([], .voidp)                                                     -- :185-186
  | .sky_del => some ([.voidp], .int)                                                 -- :188-189
  | .sky_read => some ([.voidp, .long, .byte, .charp, .double, .comm], .int)          -- :191-199
  | .sky_lmax => some ([.voidp], .int)                                                -- :201-202
  | .sky_remove_monopole => some ([.voidp], .int)                                     -- :204-205
  | .sky_remove_dipole => some ([.voidp], .int)                                       -- :207-208
  | .sky_Tdata => some ([.voidp], .voidp)                                             -- :210-211
  | .sky_Gdata => some ([.voidp], .voidp)                                             -- :213-214
  | .sky_Cdata => some ([.voidp], .voidp)                                             -- :216-217
  | .detector_new => some ([], .voidp)                                                -- :301-302
  | .detector_new_with_id => some ([.charp], .voidp)                                  -- :304-305
  | .detector_del => some ([.voidp], .int)                                            -- :307-308
  | .detector_set_epsilon => some ([.voidp, .double], .int)                           -- :310-311
  | .detector_get_epsilon => some ([.voidp, .doublep], .int)                          -- :313-317
  | .detector_get_id => some ([.voidp, .charp], .int)                                 -- :319-320
  | .pointing_new => some ([], .voidp)                                                -- :365-366
  | .pointing_del => some ([.voidp], .int)                                            -- :368-369
  | .pointing_alloc => some ([.voidp, .long], .int)                                   -- :371-372
  | .pointing_data => some ([.voidp], .doublep)                                       -- :374-375
  | .convolver_new => some ([.voidp, .voidp, .voidp, .byte, .long, .long, .long, .int, .comm], .voidp)   -- :416-427
  | .convolver_convolve => some ([.voidp, .voidp, .byte], .int)                       -- :429-430
  | .convolver_del => some ([.voidp], .int)                                           -- :432-433
  | .detector_set_id => none
  | .convolver_set_sky => none
  | .convolver_set_beam => none
  | .convolver_set_detector => none

/-- Conversion of the arguments from left to right.  Fewer arguments than declared raise a `TypeError`; additional ones are passed
too (not modelled: they are an error here). -/
def marshalAll (p : Plat) : List PyTy → List PV → Res (List Word)
  | [], [] => ok []
  | t :: ts, v :: vs => do
    let w ← marshal p t v
    let ws ← marshalAll p ts vs
    ok (w :: ws)
  | _, _ => throw "TypeError"

/-- The function reads its parameters; a parameter that was not passed is undefined behaviour. -/
def readAll (p : Plat) : List CTy → List Word → Res (List CV)
  | [], _ => ok []
  | _ :: _, [] => ub "missing argument"
  | t :: ts, w :: ws => do
    let c ← read p t w
    let cs ← readAll p ts ws
    ok (c :: cs)

/-- `_conviqt.f(args)`: what the C function sees; `throw` is a Python exception before the call. -/
def received (p : Plat) (f : Fn) (args : List PV) : Res (List CV) :=
  match decl f with
  | none => throw "not declared"
  | some d => marshalAll p d.1 args >>= readAll p (proto f).1

/-! ## specification -/

/-- The C parameter has the value of the Python argument. -/
inductive Means (p : Plat) : CTy → PV → CV → Prop where
  | long (n : ℤ) : Means p .long (.int n) (.int n)
  | int (n : ℤ) : Means p .int (.int n) (.int n)
  | char (n : ℤ) : Means p .char (.int n) (.int n)
  | float (x : ℝ) : Means p .double (.float x) (.dbl x)
  | double (n : ℤ) : Means p .double (.int n) (.dbl (p.rnd n))
  | null : Means p .ptr .none (.addr 0)
  | addr (a : ℕ) : Means p .ptr (.int a) (.addr a)
  | ref (a : ℕ) : Means p .ptr (.ref a) (.addr a)
  | str (s : List Char) : Means p .ptr (.bytes s) (.str s)
  | comm (h : ℕ) : Means p .comm (.comm h) (.comm h)

/-- `Means` for all parameters of a call. -/
inductive MeansAll (p : Plat) : List CTy → List PV → List CV → Prop where
  | nil : MeansAll p [] [] []
  | cons {t v c ts vs cs} : Means p t v c → MeansAll p ts vs cs → MeansAll p (t :: ts) (v :: vs) (c :: cs)

/-- A Python integer fits into the C parameter, a text has no zero byte (a communicator handle and addresses are what MPI and C have given). -/
def Fits : CTy → PV → Prop
  | .long, .int n => -2 ^ 63 ≤ n ∧ n < 2 ^ 63
  | .int, .int n => -2 ^ 31 ≤ n ∧ n < 2 ^ 31
  | .char, .int n => -2 ^ 7 ≤ n ∧ n < 2 ^ 7
  | .ptr, .int n => 0 ≤ n ∧ n < 2 ^ 64
  | .ptr, .bytes s => Char.ofNat 0 ∉ s
  | _, _ => True

inductive FitsAll : List CTy → List PV → Prop where
  | nil : FitsAll [] []
  | cons {t v ts vs} : Fits t v → FitsAll ts vs → FitsAll (t :: ts) (v :: vs)

/-! ## proofs -/

theorem low_lt (w : ℕ) (n : ℤ) : low w n < 2 ^ w := by
  unfold low
  have h : (0 : ℤ) < 2 ^ w := by positivity
  have := Int.emod_lt_of_pos n h
  have h0 := Int.emod_nonneg n (ne_of_gt h)
  zify
  rw [Int.toNat_of_nonneg h0]
  exact this

/-- What arrives is the number modulo `2^w`, in the range of the type: exactly the number if it is in range. -/
theorem signed_low_iff (k : ℕ) (n : ℤ) : signed (k + 1) (low (k + 1) n) = n ↔ -2 ^ k ≤ n ∧ n < 2 ^ k := by
  have hk : (0 : ℤ) < 2 ^ k := by positivity
  have hp : (2 : ℤ) ^ (k + 1) = 2 * 2 ^ k := by rw [pow_succ]; ring
  have hp' : (2 : ℕ) ^ (k + 1) = 2 * 2 ^ k := by rw [pow_succ]; ring
  have h0 := Int.emod_nonneg n (show (2 : ℤ) ^ (k + 1) ≠ 0 by positivity)
  have h1 := Int.emod_lt_of_pos n (show (0 : ℤ) < 2 ^ (k + 1) by positivity)
  have hl : ((low (k + 1) n : ℕ) : ℤ) = n % 2 ^ (k + 1) := by unfold low; exact Int.toNat_of_nonneg h0
  unfold signed
  constructor
  · intro h
    split at h
    · rename_i hc
      rw [hp'] at hc
      have hc' : 2 * ((low (k + 1) n : ℕ) : ℤ) < 2 * 2 ^ k := by exact_mod_cast hc
      constructor <;> linarith
    · rename_i hc
      rw [hp'] at hc
      have hc' : 2 * (2 : ℤ) ^ k ≤ 2 * ((low (k + 1) n : ℕ) : ℤ) := by exact_mod_cast (not_lt.mp hc)
      rw [hl] at hc' h
      constructor <;> linarith
  · rintro ⟨ha, hb⟩
    by_cases hn : 0 ≤ n
    · have hm : n % 2 ^ (k + 1) = n := Int.emod_eq_of_lt hn (by rw [hp]; linarith)
      rw [hm] at hl
      rw [if_pos]
      · exact hl
      · rw [hp']
        have : 2 * ((low (k + 1) n : ℕ) : ℤ) < 2 * 2 ^ k := by rw [hl]; linarith
        exact_mod_cast this
    · have hm : n % 2 ^ (k + 1) = n + 2 ^ (k + 1) := by
        rw [← Int.add_emod_right]
        exact Int.emod_eq_of_lt (by rw [hp]; linarith) (by linarith)
      rw [hm] at hl
      rw [if_neg]
      · rw [hl]; ring
      · rw [hp']
        have : 2 * (2 : ℤ) ^ k ≤ 2 * ((low (k + 1) n : ℕ) : ℤ) := by rw [hl, hp]; linarith
        exact not_lt.mpr (by exact_mod_cast this)

/-- Declared and prototype type agree: what a Python value of the declared type is read as. -/
def Agree (d : PyTy) (t : CTy) : Bool :=
  match d, t with
  | .voidp, .ptr | .charp, .ptr | .doublep, .ptr | .long, .long | .int, .int | .byte, .char | .double, .double | .comm, .comm => true
  | _, _ => false

theorem means_addr (p : Plat) (n : ℤ) (b : ℕ) : Means p .ptr (.int n) (.addr b) ↔ n = b := by
  constructor
  · intro h
    generalize hv : PV.int n = v at h
    generalize hc : CV.addr b = c at h
    cases h <;> simp_all
  · rintro rfl
    exact .addr b

theorem means_int (p : Plat) {t : CTy} (ht : t = .long ∨ t = .int ∨ t = .char) (n m : ℤ) : Means p t (.int n) (.int m) ↔ m = n := by
  constructor
  · intro h
    generalize hv : PV.int n = v at h
    generalize hc : CV.int m = c at h
    cases h <;> simp_all
  · rintro rfl
    rcases ht with rfl | rfl | rfl
    · exact .long m
    · exact .int m
    · exact .char m

theorem means_str (p : Plat) (s u : List Char) : Means p .ptr (.bytes s) (.str u) ↔ u = s := by
  constructor
  · intro h
    cases h
    rfl
  · rintro rfl
    exact .str u

theorem takeWhile_eq_iff (s : List Char) : s.takeWhile (· ≠ Char.ofNat 0) = s ↔ Char.ofNat 0 ∉ s := by
  induction s with
  | nil => simp
  | cons a l ih =>
    by_cases ha : a = Char.ofNat 0
    · subst ha
      simp
    · rw [List.takeWhile_cons_of_pos (by simpa using ha), List.cons.injEq, ih, List.mem_cons]
      exact ⟨fun h hm => hm.elim (fun e => ha e.symm) h.2, fun h => ⟨rfl, fun hm => h (Or.inr hm)⟩⟩

theorem low_eq_iff (w : ℕ) (n : ℤ) : n = (low w n : ℕ) ↔ 0 ≤ n ∧ n < 2 ^ w := by
  constructor
  · intro h
    have := low_lt w n
    refine ⟨by rw [h]; exact Int.natCast_nonneg _, ?_⟩
    rw [h]
    exact_mod_cast this
  · rintro ⟨h0, h1⟩
    unfold low
    rw [Int.emod_eq_of_lt h0 h1, Int.toNat_of_nonneg h0]

/-- One argument: never undefined; converted exactly iff it fits. -/
theorem one (p : Plat) {d : PyTy} {t : CTy} (h : Agree d t = true) (v : PV) :
    (∃ e, marshal p d v = throw e) ∨ ∃ w c, marshal p d v = ok w ∧ read p t w = ok c ∧ (Means p t v c ↔ Fits t v) := by
  cases d <;> cases t <;> simp only [Agree, Bool.false_eq_true] at h <;> cases v <;>
    first
    | exact Or.inl ⟨_, rfl⟩
    | exact Or.inr ⟨_, _, rfl, rfl, ⟨fun _ => trivial, fun _ => .null⟩⟩
    | exact Or.inr ⟨_, _, rfl, rfl, ⟨fun _ => trivial, fun _ => .ref _⟩⟩
    | exact Or.inr ⟨_, _, rfl, rfl, ⟨fun _ => trivial, fun _ => .float _⟩⟩
    | exact Or.inr ⟨_, _, rfl, rfl, ⟨fun _ => trivial, fun _ => .double _⟩⟩
    | exact Or.inr ⟨_, _, rfl, rfl, (means_addr p _ _).trans (low_eq_iff 64 _)⟩
    | exact Or.inr ⟨_, _, rfl, rfl, (means_str p _ _).trans (takeWhile_eq_iff _)⟩
    | skip
  · rename_i n
    refine Or.inr ⟨_, _, rfl, rfl, (means_int p (Or.inl rfl) _ _).trans ?_⟩
    rw [Nat.mod_eq_of_lt (low_lt 64 n)]
    exact signed_low_iff 63 n
  · rename_i n
    refine Or.inr ⟨_, _, rfl, rfl, (means_int p (Or.inr (Or.inl rfl)) _ _).trans ?_⟩
    rw [Nat.mod_eq_of_lt (low_lt 32 n)]
    exact signed_low_iff 31 n
  · rename_i n
    refine Or.inr ⟨_, _, rfl, rfl, (means_int p (Or.inr (Or.inr rfl)) _ _).trans ?_⟩
    rw [Nat.mod_eq_of_lt (low_lt 8 n)]
    exact signed_low_iff 7 n
  · rename_i c
    refine Or.inr ⟨_, .comm c, rfl, ?_, ⟨fun _ => trivial, fun _ => .comm c⟩⟩
    unfold read
    cases p.commInt <;> rfl

/-- All parameters. -/
theorem all (p : Plat) : ∀ (ds : List PyTy) (ts : List CTy), List.Forall₂ (fun d t => Agree d t = true) ds ts → ∀ vs : List PV,
    (∃ e, marshalAll p ds vs = throw e) ∨
      ∃ ws cs, marshalAll p ds vs = ok ws ∧ readAll p ts ws = ok cs ∧ (MeansAll p ts vs cs ↔ FitsAll ts vs) := by
  intro ds ts h
  induction h with
  | nil =>
    intro vs
    cases vs with
    | nil => exact Or.inr ⟨_, _, rfl, rfl, ⟨fun _ => .nil, fun _ => .nil⟩⟩
    | cons v vs => exact Or.inl ⟨_, rfl⟩
  | cons hd hr ih =>
    intro vs
    cases vs with
    | nil => exact Or.inl ⟨_, rfl⟩
    | cons v vs =>
      rcases one p hd v with ⟨e, he⟩ | ⟨w, c, hw, hc, hm⟩
      · refine Or.inl ⟨e, ?_⟩
        unfold marshalAll
        rw [he]
        rfl
      · rcases ih vs with ⟨e, he⟩ | ⟨ws, cs, hws, hcs, hms⟩
        · refine Or.inl ⟨e, ?_⟩
          unfold marshalAll
          rw [hw, he]
          rfl
        · refine Or.inr ⟨w :: ws, c :: cs, ?_, ?_, ?_⟩
          · unfold marshalAll
            rw [hw, hws]
            rfl
          · unfold readAll
            rw [hc, hcs]
            rfl
          · constructor
            · intro h
              cases h with
              | cons a b => exact .cons (hm.mp a) (hms.mp b)
            · intro h
              cases h with
              | cons a b => exact .cons (hm.mpr a) (hms.mpr b)

theorem agree {f : Fn} {d : List PyTy × PyTy} (h : decl f = some d) :
    List.Forall₂ (fun d t => Agree d t = true) d.1 (proto f).1 := by
  cases f <;> simp only [decl, Option.some.injEq, reduceCtorEq] at h <;> subst h <;> simp only [proto] <;>
    repeat' first
      | exact List.Forall₂.nil
      | refine List.Forall₂.cons rfl ?_

/-! ## C67: arguments -/

/-- **C67** (types): no call made through the declarations, with whatever values, makes the C function read a parameter that was
not passed, was passed with fewer bits, or in another kind of register: either Python raises before the call, or the function
receives one value per parameter of its prototype. -/
theorem C67_no_ub (p : Plat) (f : Fn) (args : List PV) :
    (∃ e, received p f args = throw e) ∨ ∃ cs, received p f args = ok cs ∧ cs.length = (proto f).1.length := by
  unfold received
  cases hd : decl f with
  | none => exact Or.inl ⟨_, rfl⟩
  | some d =>
    rcases all p _ _ (agree hd) args with ⟨e, he⟩ | ⟨ws, cs, hws, hcs, -⟩
    · refine Or.inl ⟨e, ?_⟩
      show marshalAll p d.1 args >>= readAll p (proto f).1 = _
      rw [he]
      rfl
    · refine Or.inr ⟨cs, ?_, ?_⟩
      · show marshalAll p d.1 args >>= readAll p (proto f).1 = _
        rw [hws]
        exact hcs
      · have : ∀ (ts : List CTy) (ws : List Word) (cs : List CV), readAll p ts ws = ok cs → cs.length = ts.length := by
          intro ts
          induction ts with
          | nil => intro ws cs h; unfold readAll at h; cases h; rfl
          | cons t ts ih =>
            intro ws cs h
            cases ws with
            | nil => cases h
            | cons w ws =>
              unfold readAll at h
              obtain ⟨c, -, h2⟩ := Res.bind_eq_ok.mp h
              obtain ⟨cs', h3, h4⟩ := Res.bind_eq_ok.mp h2
              cases h4
              rw [List.length_cons, List.length_cons, ih ws cs' h3]
        exact this _ _ _ hcs

/-- **C67** (values): when the function is called, its parameters have the values of the Python arguments if and only if every
integer is in the range of its parameter and no text contains a zero byte.  Missing for the full claim: the other calls are made
too, with different values (`C67_full_refuted`). -/
theorem C67_args_partial (p : Plat) (f : Fn) (args : List PV) (cs : List CV) (h : received p f args = ok cs) :
    MeansAll p (proto f).1 args cs ↔ FitsAll (proto f).1 args := by
  unfold received at h
  cases hd : decl f with
  | none => rw [hd] at h; cases h
  | some d =>
    rw [hd] at h
    rcases all p _ _ (agree hd) args with ⟨e, he⟩ | ⟨ws, cs', hws, hcs, hm⟩
    · change marshalAll p d.1 args >>= readAll p (proto f).1 = _ at h
      rw [he] at h
      cases h
    · change marshalAll p d.1 args >>= readAll p (proto f).1 = _ at h
      rw [hws] at h
      change readAll p (proto f).1 ws = _ at h
      rw [hcs] at h
      cases h
      exact hm

/-- The full claim: a call that is made passes the values of the arguments. -/
def C67_Full : Prop :=
  ∀ (p : Plat) (f : Fn) (args : List PV) (cs : List CV), received p f args = ok cs → MeansAll p (proto f).1 args cs

/-- **C67** in full is false: `Beam(2**64 + 2, …)` asks the library for `lmax = 2`. -/
theorem C67_full_refuted : ¬C67_Full := by
  intro h
  have h1 := h ⟨true, fun n => n⟩ .beam_read
    [.int 4096, .int (2 ^ 64 + 2), .int 2, .int 1, .bytes ['b'], .comm 7]
    [.addr 4096, .int 2, .int 2, .int 1, .str ['b'], .comm 7] rfl
  cases h1 with
  | cons a b =>
    cases b with
    | cons c d =>
      rw [means_int _ (Or.inl rfl)] at c
      norm_num at c

/-! ## C67: the constructors -/

/-- The integer that a C parameter of `w` bits contains after an integer was passed. -/
def wrap (w : ℕ) (n : ℤ) : ℤ := signed w (low w n)

/-- What `wrap` is: the only integer in the range of the type that differs from the argument by a multiple of `2^w`. -/
theorem wrap_spec (k : ℕ) (n m : ℤ) :
    wrap (k + 1) n = m ↔ (-2 ^ k ≤ m ∧ m < 2 ^ k) ∧ (2 : ℤ) ^ (k + 1) ∣ n - m := by
  have key : ∀ j, n % 2 ^ (k + 1) = j % 2 ^ (k + 1) → wrap (k + 1) n = wrap (k + 1) j := by
    intro j h
    unfold wrap low
    rw [h]
  constructor
  · intro h
    have hk : (0 : ℤ) < 2 ^ k := by positivity
    have hp : (2 : ℤ) ^ (k + 1) = 2 * 2 ^ k := by rw [pow_succ]; ring
    have hp' : (2 : ℕ) ^ (k + 1) = 2 * 2 ^ k := by rw [pow_succ]; ring
    have h0 := Int.emod_nonneg n (show (2 : ℤ) ^ (k + 1) ≠ 0 by positivity)
    have h1 := Int.emod_lt_of_pos n (show (0 : ℤ) < 2 ^ (k + 1) by positivity)
    have hl : ((low (k + 1) n : ℕ) : ℤ) = n % 2 ^ (k + 1) := by unfold low; exact Int.toNat_of_nonneg h0
    have hd : (2 : ℤ) ^ (k + 1) ∣ n - n % 2 ^ (k + 1) := Int.dvd_self_sub_emod
    unfold wrap signed at h
    split at h
    · rename_i hc
      rw [hp'] at hc
      have hc' : 2 * ((low (k + 1) n : ℕ) : ℤ) < 2 * 2 ^ k := by exact_mod_cast hc
      rw [hl] at hc' h
      subst h
      exact ⟨⟨by linarith, by linarith⟩, hd⟩
    · rename_i hc
      rw [hp'] at hc
      have hc' : 2 * (2 : ℤ) ^ k ≤ 2 * ((low (k + 1) n : ℕ) : ℤ) := by exact_mod_cast (not_lt.mp hc)
      rw [hl] at hc' h
      subst h
      refine ⟨⟨by linarith, by linarith⟩, ?_⟩
      rw [← sub_add]
      exact dvd_add hd (dvd_refl _)
  · rintro ⟨hr, hd⟩
    rw [key m (Int.emod_eq_emod_iff_emod_sub_eq_zero.mpr (Int.emod_eq_zero_of_dvd hd))]
    exact (signed_low_iff k m).mpr hr

theorem wrap_eq (k : ℕ) {n : ℤ} (h : -2 ^ k ≤ n ∧ n < 2 ^ k) : wrap (k + 1) n = n := (signed_low_iff k n).mpr h

theorem read_long (p : Plat) (n : ℤ) : read p .long (.int 64 (low 64 n)) = ok (.int (wrap 64 n)) := by
  show ok (CV.int (signed 64 (low 64 n % 2 ^ 64))) = _
  rw [Nat.mod_eq_of_lt (low_lt 64 n)]
  rfl

theorem read_int (p : Plat) (n : ℤ) : read p .int (.int 32 (low 32 n)) = ok (.int (wrap 32 n)) := by
  show ok (CV.int (signed 32 (low 32 n % 2 ^ 32))) = _
  rw [Nat.mod_eq_of_lt (low_lt 32 n)]
  rfl

theorem read_char (p : Plat) (n : ℤ) : read p .char (.int 8 (low 8 n)) = ok (.int (wrap 8 n)) := by
  show ok (CV.int (signed 8 (low 8 n % 2 ^ 8))) = _
  rw [Nat.mod_eq_of_lt (low_lt 8 n)]
  rfl

theorem read_comm (p : Plat) (h : ℕ) : read p .comm (if p.commInt then .int 32 h else .int 64 h) = ok (.comm h) := by
  unfold read
  cases p.commInt <;> rfl

/-- A `char` argument is used as a condition: only its low byte counts. -/
theorem wrap8_ne (n : ℤ) : decide (wrap 8 n ≠ 0) = cByte n := by
  unfold cByte
  congr 1
  rw [ne_eq, ne_eq, wrap_spec 7]
  simp only [sub_zero]
  apply propext
  constructor
  · intro h h2
    exact h ⟨by norm_num, by have := Int.dvd_of_emod_eq_zero h2; norm_num at this ⊢; exact this⟩
  · intro h h2
    exact h (Int.emod_eq_zero_of_dvd (by have := h2.2; norm_num at this; exact this))

/-- The call in `Beam.__init__`, __init__.py:92-97, and `conviqt_beam_read` with the parameters it received
(src/cconviqt.cpp:24-37); `obj` is the address of the new object, `comm` the handle.  A character is a byte. -/
noncomputable def beamCall (p : Plat) (fs : Files) (chunk : ℕ) (junk : ℕ → ℂ) (rank obj comm : ℕ) (lmax mmax pol : PV) (file : List Char) :
    Res (Prog ℂ (Val PyBeam)) :=
  received p .beam_read [.int obj, lmax, mmax, pol, .bytes file, .comm comm] >>= fun
    | [.addr _, .int l, .int m, .int q, .str f, .comm _] =>
      ok (CApi.beamReadC fs chunk junk rank l m (decide (q ≠ 0)) (String.ofList f) (Beam.fresh (junk 0)) >>= fun x =>
        Prog.done (ok (if x.2 ≠ 0 then .raise "RuntimeError: Failed to load"
          else .ret ⟨x.1, match pol with | .int n => n | _ => 0⟩)))
    | _ => ub "parameters"

/-- The call in `Sky.__init__`, __init__.py:224-229, and `conviqt_sky_read` (src/cconviqt.cpp:118-131). -/
noncomputable def skyCall (p : Plat) (fs : Files) (chunk : ℕ) (junk : ℕ → ℂ) (rank obj comm : ℕ) (lmax pol : PV) (file : List Char)
    (fwhm : PV) : Res (Prog ℂ (Val PySky)) :=
  received p .sky_read [.int obj, lmax, pol, .bytes file, fwhm, .comm comm] >>= fun
    | [.addr _, .int l, .int q, .str f, .dbl x, .comm _] =>
      ok (CApi.skyReadC fs chunk junk rank l (decide (q ≠ 0)) (String.ofList f) x (Sky.fresh (junk 0)) >>= fun y =>
        Prog.done (ok (if y.2 ≠ 0 then .raise "RuntimeError: Failed to load"
          else .ret ⟨y.1, match pol with | .int n => n | _ => 0⟩)))
    | _ => ub "parameters"

/-- The call in `Convolver.__init__`, __init__.py:440-453, and `conviqt_convolver_new` (src/cconviqt.cpp:279-320): the objects are
found by their addresses. -/
def convCall (p : Plat) (mem : Bool) (w : World) (s b d comm : ℕ) (pol lmax mmax order verbosity : PV) : Res (Out (Option Conv) × ℤ) :=
  received p .convolver_new [.int s, .int b, .int d, pol, lmax, mmax, order, verbosity, .comm comm] >>= fun
    | [.addr s, .addr b, .addr d, .int q, .int l, .int m, .int o, .int v, .comm _] =>
      ok (CApi.convolverNew mem w s b d (decide (q ≠ 0)) l m o, v)
    | _ => ub "parameters"

/-- **C67** (`Beam`): the object is read with `lmax` and `mmax` reduced modulo `2^64` to the range of a C `long`, with the low byte of
`pol`, and with the file name up to its first zero byte. -/
theorem C67_beam (p : Plat) (fs : Files) (chunk : ℕ) (junk : ℕ → ℂ) (rank obj comm : ℕ) (lmax mmax pol : ℤ) (file : List Char) :
    beamCall p fs chunk junk rank obj comm (.int lmax) (.int mmax) (.int pol) file =
      ok (beamInit fs chunk junk rank (wrap 64 lmax) (wrap 64 mmax) pol (String.ofList (file.takeWhile (· ≠ Char.ofNat 0)))) := by
  have h : received p .beam_read [.int obj, .int lmax, .int mmax, .int pol, .bytes file, .comm comm] =
      ok [.addr (low 64 obj), .int (wrap 64 lmax), .int (wrap 64 mmax), .int (wrap 8 pol),
        .str (file.takeWhile (· ≠ Char.ofNat 0)), .comm comm] := by
    simp only [received, decl, proto, marshalAll, marshal, Res.ok_bind, readAll, read_long, read_char, read_comm]
    rfl
  unfold beamCall beamInit
  rw [h, Res.ok_bind]
  simp only [wrap8_ne]

/-- … in particular exactly as asked, when the numbers are in range and the name has no zero byte. -/
theorem C67_beam_exact (p : Plat) (fs : Files) (chunk : ℕ) (junk : ℕ → ℂ) (rank obj comm : ℕ) (lmax mmax pol : ℤ) (file : List Char)
    (hl : -2 ^ 63 ≤ lmax ∧ lmax < 2 ^ 63) (hm : -2 ^ 63 ≤ mmax ∧ mmax < 2 ^ 63) (hf : Char.ofNat 0 ∉ file) :
    beamCall p fs chunk junk rank obj comm (.int lmax) (.int mmax) (.int pol) file =
      ok (beamInit fs chunk junk rank lmax mmax pol (String.ofList file)) := by
  rw [C67_beam, wrap_eq 63 hl, wrap_eq 63 hm, (takeWhile_eq_iff file).mpr hf]

/-- A number that is not an integer never reaches the library. -/
theorem C67_beam_float (p : Plat) (fs : Files) (chunk : ℕ) (junk : ℕ → ℂ) (rank obj comm : ℕ) (x : ℝ) (mmax pol : PV) (file : List Char) :
    ∃ e, beamCall p fs chunk junk rank obj comm (.float x) mmax pol file = throw e := ⟨_, rfl⟩

/-- **C67** (`Sky`). -/
theorem C67_sky (p : Plat) (fs : Files) (chunk : ℕ) (junk : ℕ → ℂ) (rank obj comm : ℕ) (lmax pol : ℤ) (file : List Char) (fwhm : ℝ) :
    skyCall p fs chunk junk rank obj comm (.int lmax) (.int pol) file (.float fwhm) =
      ok (skyInit fs chunk junk rank (wrap 64 lmax) pol (String.ofList (file.takeWhile (· ≠ Char.ofNat 0))) fwhm) := by
  have h : received p .sky_read [.int obj, .int lmax, .int pol, .bytes file, .float fwhm, .comm comm] =
      ok [.addr (low 64 obj), .int (wrap 64 lmax), .int (wrap 8 pol),
        .str (file.takeWhile (· ≠ Char.ofNat 0)), .dbl fwhm, .comm comm] := by
    simp only [received, decl, proto, marshalAll, marshal, Res.ok_bind, readAll, read_long, read_char, read_comm]
    rfl
  unfold skyCall skyInit
  rw [h, Res.ok_bind]
  simp only [wrap8_ne]

/-- **C67** (`Convolver`): which objects, and which parameters, reach the constructor. -/
theorem C67_convolver (p : Plat) (mem : Bool) (w : World) (s b d comm : ℕ) (pol lmax mmax order verbosity : ℤ)
    (hs : s < 2 ^ 64) (hb : b < 2 ^ 64) (hd : d < 2 ^ 64) :
    convCall p mem w s b d comm (.int pol) (.int lmax) (.int mmax) (.int order) (.int verbosity) =
      ok (CApi.convolverNew mem w s b d (cByte pol) (wrap 64 lmax) (wrap 64 mmax) (wrap 64 order), wrap 32 verbosity) := by
  have ha : ∀ a : ℕ, a < 2 ^ 64 → low 64 (a : ℤ) = a := by
    intro a h
    have := (low_eq_iff 64 (a : ℤ)).mpr ⟨Int.natCast_nonneg _, by exact_mod_cast h⟩
    exact_mod_cast this.symm
  have h : received p .convolver_new
      [.int s, .int b, .int d, .int pol, .int lmax, .int mmax, .int order, .int verbosity, .comm comm] =
      ok [.addr s, .addr b, .addr d, .int (wrap 8 pol), .int (wrap 64 lmax), .int (wrap 64 mmax), .int (wrap 64 order),
        .int (wrap 32 verbosity), .comm comm] := by
    simp only [received, decl, proto, marshalAll, marshal, Res.ok_bind, readAll, read_long, read_char, read_int, read_comm, ha s hs, ha b hb,
      ha d hd]
    rfl
  unfold convCall
  rw [h, Res.ok_bind]
  simp only [wrap8_ne]

/-- The limit on `lmax` (C35) is applied to what arrives: `lmax = 2^64 + 2` passes it. -/
theorem C67_limit_passed (p : Plat) (mem : Bool) (w : World) (s b d comm : ℕ) (pol mmax order verbosity : ℤ)
    (hs : s < 2 ^ 64) (hb : b < 2 ^ 64) (hd : d < 2 ^ 64) (k n : ℤ) (hn : -2 ^ 63 ≤ n ∧ n < 2 ^ 63) :
    convCall p mem w s b d comm (.int pol) (.int (k * 2 ^ 64 + n)) (.int mmax) (.int order) (.int verbosity) =
      convCall p mem w s b d comm (.int pol) (.int n) (.int mmax) (.int order) (.int verbosity) := by
  rw [C67_convolver p mem w s b d comm pol _ mmax order verbosity hs hb hd, C67_convolver p mem w s b d comm pol n mmax order verbosity hs hb hd,
    wrap_eq 63 hn, (wrap_spec 63 (k * 2 ^ 64 + n) n).mpr ⟨hn, ⟨k, by ring⟩⟩]

/-! ## C67: results -/

/-- What a C function returns: the value of the result type in a register. -/
inductive RV where
  | int (n : ℤ) | dbl (x : ℝ) | ptr (a : ℕ)

/-- Value of the result type of the prototype. -/
def RV.Is : CTy → RV → Prop
  | .int, .int n => -2 ^ 31 ≤ n ∧ n < 2 ^ 31
  | .double, .dbl _ => True
  | .ptr, .ptr a => a < 2 ^ 64
  | _, _ => False

/-- Register with a result: an `int` in the low 32 bits. -/
def RV.word : RV → Word
  | .int n => .int 32 (low 32 n)
  | .dbl x => .dbl x
  | .ptr a => .int 64 a

/-- Conversion of the result with `restype`: a null pointer of type `c_void_p` is `None`; a result of type
`POINTER(c_double)` is a pointer object. -/
def result : PyTy → Word → Res PV
  | .int, .int w b => if 32 ≤ w then ok (.int (signed 32 (b % 2 ^ 32))) else ub "upper part"
  | .voidp, .int w b => if 64 ≤ w then ok (if b = 0 then .none else .int b) else ub "upper half of a pointer"
  | .doublep, .int w b => if 64 ≤ w then ok (.ref b) else ub "upper half of a pointer"
  | .double, .dbl x => ok (.float x)
  | _, _ => ub "wrong kind of register"

/-- **C67** (results): Python gets the value that the C function returned: status and numbers unchanged, addresses as integers that
identify them, `None` for NULL. -/
theorem C67_result (f : Fn) (d : List PyTy × PyTy) (hd : decl f = some d) (r : RV) (hr : r.Is (proto f).2) :
    (∀ n, r = .int n → result d.2 r.word = ok (.int n)) ∧ (∀ x, r = .dbl x → result d.2 r.word = ok (.float x)) ∧
      (∀ a, r = .ptr a → f ≠ .pointing_data → result d.2 r.word = ok (if a = 0 then .none else .int a)) ∧
      ∀ a, r = .ptr a → f = .pointing_data → result d.2 r.word = ok (.ref a) := by
  have hk : (proto f).2 = .int ∧ d.2 = .int ∨ (proto f).2 = .double ∧ d.2 = .double ∨
      (proto f).2 = .ptr ∧ (f ≠ .pointing_data ∧ d.2 = .voidp ∨ f = .pointing_data ∧ d.2 = .doublep) := by
    cases f <;> simp only [decl, Option.some.injEq, reduceCtorEq] at hd <;> subst hd <;> simp [proto]
  refine ⟨?_, ?_, ?_, ?_⟩
  · rintro n rfl
    rcases hk with ⟨h1, h2⟩ | ⟨h1, h2⟩ | ⟨h1, h2⟩
    · rw [h1] at hr
      rw [h2]
      show ok (PV.int (signed 32 (low 32 n % 2 ^ 32))) = _
      rw [Nat.mod_eq_of_lt (low_lt 32 n), (signed_low_iff 31 n).mpr hr]
    · rw [h1] at hr; exact hr.elim
    · rw [h1] at hr; exact hr.elim
  · rintro x rfl
    rcases hk with ⟨h1, h2⟩ | ⟨h1, h2⟩ | ⟨h1, h2⟩
    · rw [h1] at hr; exact hr.elim
    · rw [h2]; rfl
    · rw [h1] at hr; exact hr.elim
  · rintro a rfl hf
    rcases hk with ⟨h1, h2⟩ | ⟨h1, h2⟩ | ⟨h1, ⟨-, h2⟩ | ⟨h2, -⟩⟩
    · rw [h1] at hr; exact hr.elim
    · rw [h1] at hr; exact hr.elim
    · rw [h2]; rfl
    · exact absurd h2 hf
  · rintro a rfl hf
    rcases hk with ⟨h1, h2⟩ | ⟨h1, h2⟩ | ⟨h1, ⟨h2, -⟩ | ⟨-, h2⟩⟩
    · rw [h1] at hr; exact hr.elim
    · rw [h1] at hr; exact hr.elim
    · exact absurd hf h2
    · rw [h2]; rfl

/-! ## concrete cases -/

/-- A call that fits. -/
example : FitsAll (proto .beam_read).1 [.int 4096, .int 1024, .int 14, .int 1, .bytes ['b', '.', 'f'], .comm 7] :=
  .cons (by norm_num [Fits]) (.cons (by norm_num [Fits]) (.cons (by norm_num [Fits]) (.cons (by norm_num [Fits])
    (.cons (by simp only [Fits]; decide) (.cons trivial .nil)))))

/-- … arrives. -/
example : received ⟨false, fun n => n⟩ .beam_read [.int 4096, .int 1024, .int 14, .int 1, .bytes ['b', '.', 'f'], .comm 7] =
    ok [.addr 4096, .int 1024, .int 14, .int 1, .str ['b', '.', 'f'], .comm 7] := rfl

/-- A negative verbosity arrives. -/
example : wrap 32 (-3) = -3 := wrap_eq 31 (by norm_num)

/-- `pol = 256` arrives as 0: unpolarised. -/
example : cByte 256 = false ∧ wrap 8 256 = 0 := ⟨rfl, rfl⟩

end Verif.Ctypes
