import Verif.Index.Overflow
import Verif.Index.AlmProps

/-! # C25: access to coefficients in `int` arithmetic -/

namespace Verif.Harm
open Verif Res

/-- **C25 (access, elements).** Under the same condition, reading and writing a coefficient that exists are the operations with unbounded
integers: a write is seen by the read of the same coefficient and of no other. -/
theorem C25_access_refines_partial {α : Type} (a : Alm α) (ha : a.WF) (hm : a.mmax ≤ a.lmax)
    (h : a.lmax * a.lmax + a.lmax + a.mmax + 1 ≤ 2147483647) (l m : Int) (hv : Valid a.lmax a.mmax l m) (v : α) :
    a.get32 l m = a.get l m ∧ a.put32 l m v = a.put l m v ∧
    ∃ b, a.put32 l m v = ok b ∧ b.lmax = a.lmax ∧ b.mmax = a.mmax ∧ b.get32 l m = ok v ∧
      ∀ l' m', Valid a.lmax a.mmax l' m' → ¬(l' = l ∧ m' = m) → b.get32 l' m' = a.get32 l' m' := by
  have hg : ∀ (c : Alm α), c.lmax = a.lmax → ∀ l m, Valid a.lmax a.mmax l m → c.get32 l m = c.get l m := by
    intro c hc l m hv
    unfold Alm.get32 Alm.get
    rw [hc, index32_eq h hm hv, ok_bind]
  have hp : a.put32 l m v = a.put l m v := put32_eq h hm a rfl hv v
  obtain ⟨b, h1, _, h2, h3, h4, h5⟩ := C24_put_get a ha l m v hv
  refine ⟨hg a rfl l m hv, hp, b, by rw [hp, h1], h2, h3, by rw [hg b h2 l m hv, h4], fun l' m' hv' hne => ?_⟩
  rw [hg b h2 l' m' hv', hg a rfl l' m' hv']
  exact h5 l' m' hv' (fun e => hne ⟨congrArg Prod.fst e, congrArg Prod.snd e⟩)

/-- The condition is needed: element `(100000, 12000)` of an expansion with `lmax = 100000` (well below the reader's limit) cannot be read. -/
theorem C25_access_overflow {α : Type} (x : α) :
    (Alm.get32 (⟨100000, 12000, [x]⟩ : Alm α) 100000 12000).IsUB := by
  unfold Alm.get32
  have h : index32 100000 100000 12000 = ub "signed integer overflow" := by
    have h1 : tval32 100000 = ok 200001 := tval32_eq (by norm_num) (by norm_num)
    unfold index32
    rw [h1, ok_bind, i32_ok (by norm_num) (by norm_num), ok_bind, i32_ub (by norm_num)]
    rfl
  rw [h]
  exact True.intro

end Verif.Harm
