import Verif.Poly.CodecOrd
import Verif.Mono.Sys

/-! # Multiplication on packed monomials -/

namespace CLPoly
open Mono

section codec
variable {vc : Var → Var → Bool} {mc : Mono → Mono → Bool} {pack : Mono → Nat} {unpack : Nat → Mono} {B : Mono → Prop}

/-- the packed keys -/
def Packed (pack : Mono → Nat) (B : Mono → Prop) (k : Nat) : Prop := ∃ m, B m ∧ pack m = k

theorem gtN_lawful (S : Nat → Prop) : Lawful S gtN where
  irrefl a _ := by simp [gtN]
  trans a b c _ _ _ := by simp only [gtN, decide_eq_true_eq]; omega
  total a b _ _ := by simp only [gtN, decide_eq_true_eq]; omega

theorem gtN_wf (S : Nat → Prop) : WellFounded fun a b : {x // S x} => gtN b.1 a.1 = true := by
  refine Subrelation.wf (r := InvImage (· < ·) (fun a : {x // S x} => a.1)) ?_ (InvImage.wf _ Nat.lt_wfRel.wf)
  intro a b h
  show a.1 < b.1
  simpa [gtN] using h

namespace Codec
variable (C : Codec vc mc pack unpack B)
include C

theorem gt_iff (M : MonoOrd vc mc) {a b : Mono} (ha : B a) (hb : B b) : gtN (pack a) (pack b) = true ↔ mc a b = true := by
  simp only [gtN, decide_eq_true_eq]
  refine ⟨fun h => ?_, C.lt a b ha hb⟩
  by_cases e : a = b
  · subst e; omega
  · rcases M.lawful.total a b (C.valid a ha) (C.valid b hb) e with h1 | h1
    · exact h1
    · have := C.lt b a hb ha h1; omega

variable {R : Type*} [CommRing R]

/-- the packed vector -/
theorem den_packed {p : PV Mono R} (hB : ∀ t ∈ p, B t.1) :
    den (fun k => termVal R (unpack k)) (p.map fun t => (pack t.1, t.2)) = val p := by
  induction p with
  | nil => rfl
  | cons t p ih =>
    rw [List.map_cons, den_cons, ih fun x hx => hB x (List.mem_cons_of_mem _ hx), val_cons, C.round _ (hB t (by simp))]
    rfl

omit C in
theorem val_unpacked (out : PV Nat R) :
    val (out.map fun t => (unpack t.1, t.2)) = den (fun k => termVal R (unpack k)) out := by
  induction out with
  | nil => rfl
  | cons t p ih => rw [List.map_cons, den_cons, val_cons, ih]; rfl

theorem canon_packed {p : PV Mono R} (hB : ∀ t ∈ p, B t.1) (hc : Canon mc p) :
    Canon gtN (p.map fun t => (pack t.1, t.2)) := by
  refine ⟨?_, ?_⟩
  · rw [List.pairwise_map]
    exact hc.1.imp_of_mem fun ha hb hab => by
      simp only [gtN, decide_eq_true_eq]; exact C.lt _ _ (hB _ ha) (hB _ hb) hab
  · intro x hx
    obtain ⟨y, hy, rfl⟩ := List.mem_map.1 hx
    exact hc.2 y hy

theorem polyOK_unpacked (M : MonoOrd vc mc) {out : PV Nat R} (hS : KeysIn (Packed pack B) out) (hc : Canon gtN out) :
    PolyOK vc mc (out.map fun t => (unpack t.1, t.2)) := by
  refine ⟨?_, ?_, ?_⟩
  · intro t ht
    obtain ⟨y, hy, rfl⟩ := List.mem_map.1 ht
    obtain ⟨m, hm, he⟩ := hS y hy
    simp only
    rw [← he, C.round m hm]; exact C.valid m hm
  · rw [List.pairwise_map]
    refine hc.1.imp_of_mem fun {a b} ha hb hab => ?_
    obtain ⟨m, hm, he⟩ := hS a ha
    obtain ⟨m', hm', he'⟩ := hS b hb
    rw [← he, ← he'] at hab ⊢
    rw [C.round m hm, C.round m' hm']
    exact (C.gt_iff M hm hm').1 hab
  · intro x hx
    obtain ⟨y, hy, rfl⟩ := List.mem_map.1 hx
    exact hc.2 y hy

theorem mulCompat (M : MonoOrd vc mc) {p q : PV Mono R} (hp : ∀ t ∈ p, B t.1) (hq : ∀ t ∈ q, B t.1)
    (hm : ∀ x ∈ p, ∀ y ∈ q, B (mul vc x.1 y.1)) :
    MulCompat (Packed pack B) gtN addW (fun k => termVal R (unpack k)) (p.map fun t => (pack t.1, t.2))
      (q.map fun t => (pack t.1, t.2)) where
  valid x hx y hy := by
    obtain ⟨a, ha, rfl⟩ := List.mem_map.1 hx
    obtain ⟨b, hb, rfl⟩ := List.mem_map.1 hy
    exact ⟨_, hm a ha b hb, (C.add _ _ (hp a ha) (hq b hb) (hm a ha b hb)).symm⟩
  monoR x hx y hy y' hy' h := by
    obtain ⟨a, ha, rfl⟩ := List.mem_map.1 hx
    obtain ⟨b, hb, rfl⟩ := List.mem_map.1 hy
    obtain ⟨b', hb', rfl⟩ := List.mem_map.1 hy'
    rw [C.gt_iff M (hq b hb) (hq b' hb')] at h
    simp only
    rw [C.add _ _ (hp a ha) (hq b hb) (hm a ha b hb), C.add _ _ (hp a ha) (hq b' hb') (hm a ha b' hb'),
      C.gt_iff M (hm a ha b hb) (hm a ha b' hb')]
    have va := C.valid _ (hp a ha)
    have vb := C.valid _ (hq b hb)
    have vb' := C.valid _ (hq b' hb')
    rw [mul_comm' M.vo va vb, mul_comm' M.vo va vb']
    exact M.mono _ _ _ vb vb' va h
  monoL x hx x' hx' y hy h := by
    obtain ⟨a, ha, rfl⟩ := List.mem_map.1 hx
    obtain ⟨a', ha', rfl⟩ := List.mem_map.1 hx'
    obtain ⟨b, hb, rfl⟩ := List.mem_map.1 hy
    rw [C.gt_iff M (hp a ha) (hp a' ha')] at h
    simp only
    rw [C.add _ _ (hp a ha) (hq b hb) (hm a ha b hb), C.add _ _ (hp a' ha') (hq b hb) (hm a' ha' b hb),
      C.gt_iff M (hm a ha b hb) (hm a' ha' b hb)]
    exact M.mono _ _ _ (C.valid _ (hp a ha)) (C.valid _ (hp a' ha')) (C.valid _ (hq b hb)) h
  comm x _ y _ := by simp [addW, Nat.add_comm]
  term x hx y hy c d := by
    obtain ⟨a, ha, rfl⟩ := List.mem_map.1 hx
    obtain ⟨b, hb, rfl⟩ := List.mem_map.1 hy
    simp only
    rw [C.add _ _ (hp a ha) (hq b hb) (hm a ha b hb), C.round _ (hm a ha b hb), C.round _ (hp a ha), C.round _ (hq b hb)]
    show MvPolynomial.monomial _ _ = MvPolynomial.monomial _ _ * MvPolynomial.monomial _ _
    rw [MvPolynomial.monomial_mul, expo_mul M.vo (C.valid _ (hp a ha)) (C.valid _ (hq b hb))]

variable [DecidableEq R]

/-- **packed multiplication**: correct whenever every product of terms fits -/
theorem packedMul_spec (M : MonoOrd vc mc) {p q : PV Mono R} (hp : ∀ t ∈ p, B t.1) (hq : ∀ t ∈ q, B t.1)
    (cp : Canon mc p) (cq : Canon mc q) (hm : ∀ x ∈ p, ∀ y ∈ q, B (mul vc x.1 y.1)) (p0 : p ≠ []) (q0 : q ≠ []) :
    ∃ out, packedMul pack unpack p q = some out ∧ PolyOK vc mc out ∧ val out = val p * val q := by
  obtain ⟨L, _, r, hr⟩ := (gtN_lawful (Packed pack B)).exists_rank
  obtain ⟨out, o1, o2, o3, o4⟩ := heapMul_spec hr ((C.mulCompat M hp hq hm).ok hr (C.canon_packed hp cp) (C.canon_packed hq cq))
    (by simpa using p0) (by simpa using q0)
  have hS : KeysIn (Packed pack B) out := fun x hx => (o4 x hx).2
  refine ⟨_, by unfold packedMul; rw [o1]; rfl, C.polyOK_unpacked M hS ⟨?_, fun x hx => (o4 x hx).1⟩, ?_⟩
  · exact o3.imp_of_mem (fun ha hb hab => (hr.comp_iff _ _ (o4 _ ha).2 (o4 _ hb).2).2 hab)
  · rw [val_unpacked, o2, C.den_packed hp, C.den_packed hq]

end Codec
end codec
end CLPoly
