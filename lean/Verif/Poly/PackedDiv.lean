import Verif.Poly.MulSpec

/-! # Division on packed monomials -/

namespace CLPoly
open Mono
variable {vc : Var → Var → Bool} {mc : Mono → Mono → Bool} {pack : Mono → Nat} {unpack : Nat → Mono} {B : Mono → Prop}
  {mold : Nat} {lm : Mono} {H G : Mono → Prop}

/-- what the packed division needs: `H` are the quotient monomials the bit test recognises, `G` the monomials of the
divisor -/
structure DivCodec (vc : Var → Var → Bool) (mc : Mono → Mono → Bool) (pack : Mono → Nat) (unpack : Nat → Mono)
    (B : Mono → Prop) (mold : Nat) (lm : Mono) (H G : Mono → Prop) : Prop extends Codec vc mc pack unpack B where
  lmG : G lm
  hB : ∀ m, H m → B m
  gB : ∀ m, G m → B m
  div : ∀ m k, B m → (packedDivx mold (pack m) (pack lm) = some k ↔ ∃ m1, H m1 ∧ mul vc m1 lm = m ∧ pack m1 = k)
  clo : ∀ m1 y, H m1 → B (mul vc m1 lm) → G y → B (mul vc m1 y)

/-- cancellation in the order -/
theorem Mono.MonoOrd.cancel (M : MonoOrd vc mc) {a b c : Mono} (ha : Valid vc a) (hb : Valid vc b) (hc : Valid vc c)
    (h : mc (mul vc a c) (mul vc b c) = true) : mc a b = true := by
  have MS := monoSys (R := ℤ) M (varsOf a ∪ varsOf b ∪ varsOf c)
  refine (MS.mono_iff a b c (validIn_varsOf ha ?_) (validIn_varsOf hb ?_) (validIn_varsOf hc ?_)).1 h
  · exact fun x hx => Finset.mem_union_left _ (Finset.mem_union_left _ hx)
  · exact fun x hx => Finset.mem_union_left _ (Finset.mem_union_right _ hx)
  · exact fun x hx => Finset.mem_union_right _ hx

theorem Mono.MonoOrd.mul_cancel (M : MonoOrd vc mc) {a b c : Mono} (ha : Valid vc a) (hb : Valid vc b) (hc : Valid vc c)
    (h : mul vc a c = mul vc b c) : a = b := by
  have MS := monoSys (R := ℤ) M (varsOf a ∪ varsOf b ∪ varsOf c)
  refine MS.mul_inj a b c (validIn_varsOf ha ?_) (validIn_varsOf hb ?_) (validIn_varsOf hc ?_) h
  · exact fun x hx => Finset.mem_union_left _ (Finset.mem_union_left _ hx)
  · exact fun x hx => Finset.mem_union_left _ (Finset.mem_union_right _ hx)
  · exact fun x hx => Finset.mem_union_right _ hx

variable {R : Type*} [CommRing R] [DecidableEq R]

/-- the default coefficient is zero -/
local instance packedDivDefault : Inhabited R := ⟨0⟩

namespace DivCodec
variable (C : DivCodec vc mc pack unpack B mold lm H G)
include C

theorem divCompat (M : MonoOrd vc mc) {lc : R} {w : PV Mono R} (hG : ∀ t ∈ (lm, lc) :: w, G t.1) :
    DivCompat (Packed pack B) gtN addW (packedDivx mold) (fun k => termVal R (unpack k))
      (((lm, lc) :: w).map fun t => (pack t.1, t.2)) := by
  have h0 : (at_ (((lm, lc) :: w).map fun t => (pack t.1, t.2)) 0).1 = pack lm := rfl
  have get : ∀ k k1, Packed pack B k → packedDivx mold k (pack lm) = some k1 →
      ∃ m1, H m1 ∧ B (mul vc m1 lm) ∧ pack (mul vc m1 lm) = k ∧ pack m1 = k1 := by
    rintro k k1 ⟨m, hm, rfl⟩ hk
    obtain ⟨m1, a, rfl, c⟩ := (C.div m k1 hm).1 hk
    exact ⟨m1, a, hm, rfl, c⟩
  have V := C.valid
  refine ⟨?_, ?_, ?_, ?_, ?_⟩
  · intro k k1 hk h
    rw [h0] at h ⊢
    obtain ⟨m1, a, b, rfl, rfl⟩ := get k k1 hk h
    exact C.add _ _ (C.hB _ a) (C.gB _ C.lmG) b
  · intro k k1 hk h y hy
    rw [h0] at h
    obtain ⟨m1, a, b, rfl, rfl⟩ := get k k1 hk h
    obtain ⟨t, ht, rfl⟩ := List.mem_map.1 hy
    have hb := C.clo m1 t.1 a b (hG t ht)
    exact ⟨_, hb, (C.add _ _ (C.hB _ a) (C.gB _ (hG t ht)) hb).symm⟩
  · intro k k1 hk h y hy y' hy' hyy
    rw [h0] at h
    obtain ⟨m1, a, b, rfl, rfl⟩ := get k k1 hk h
    obtain ⟨t, ht, rfl⟩ := List.mem_map.1 hy
    obtain ⟨t', ht', rfl⟩ := List.mem_map.1 hy'
    have gt := hG t ht
    have gt' := hG t' ht'
    have hb := C.clo m1 t.1 a b gt
    have hb' := C.clo m1 t'.1 a b gt'
    simp only at hyy ⊢
    rw [C.toCodec.gt_iff M (C.gB _ gt) (C.gB _ gt')] at hyy
    rw [C.add _ _ (C.hB _ a) (C.gB _ gt) hb, C.add _ _ (C.hB _ a) (C.gB _ gt') hb', C.toCodec.gt_iff M hb hb',
      mul_comm' M.vo (V _ (C.hB _ a)) (V _ (C.gB _ gt)), mul_comm' M.vo (V _ (C.hB _ a)) (V _ (C.gB _ gt'))]
    exact M.mono _ _ _ (V _ (C.gB _ gt)) (V _ (C.gB _ gt')) (V _ (C.hB _ a)) hyy
  · intro k k1 k' k1' hk hk' h h' hkk y hy
    rw [h0] at h h'
    obtain ⟨m1, a, b, rfl, rfl⟩ := get k k1 hk h
    obtain ⟨m1', a', b', rfl, rfl⟩ := get k' k1' hk' h'
    obtain ⟨t, ht, rfl⟩ := List.mem_map.1 hy
    have gt := hG t ht
    have hb := C.clo m1 t.1 a b gt
    have hb' := C.clo m1' t.1 a' b' gt
    rw [C.toCodec.gt_iff M b b'] at hkk
    simp only
    rw [C.add _ _ (C.hB _ a) (C.gB _ gt) hb, C.add _ _ (C.hB _ a') (C.gB _ gt) hb', C.toCodec.gt_iff M hb hb']
    exact M.mono _ _ _ (V _ (C.hB _ a)) (V _ (C.hB _ a')) (V _ (C.gB _ gt))
      (M.cancel (V _ (C.hB _ a)) (V _ (C.hB _ a')) (V _ (C.gB _ C.lmG)) hkk)
  · intro k k1 hk h y hy c d
    rw [h0] at h
    obtain ⟨m1, a, b, rfl, rfl⟩ := get k k1 hk h
    obtain ⟨t, ht, rfl⟩ := List.mem_map.1 hy
    have gt := hG t ht
    have hb := C.clo m1 t.1 a b gt
    simp only
    rw [C.add _ _ (C.hB _ a) (C.gB _ gt) hb, C.round _ hb, C.round _ (C.hB _ a), C.round _ (C.gB _ gt)]
    show MvPolynomial.monomial _ _ = MvPolynomial.monomial _ _ * MvPolynomial.monomial _ _
    rw [MvPolynomial.monomial_mul, expo_mul M.vo (V _ (C.hB _ a)) (V _ (C.gB _ gt))]

/-- **packed division**: the loop ends; the quotient is canonical with recognised monomials; the division identity holds;
every remainder term is either not reducible by a recognised monomial or has a coefficient remainder. -/
theorem packedDiv_spec (M : MonoOrd vc mc) {divc : R → R → R × R} {p : PV Mono R} {lc : R} {w : PV Mono R}
    (hp : ∀ t ∈ p, B t.1) (cp : Canon mc p) (hG : ∀ t ∈ (lm, lc) :: w, G t.1) (cq : Canon mc ((lm, lc) :: w))
    (hdiv : ∀ k, k = (divc k lc).1 * lc + (divc k lc).2) :
    ∃ N Q R', (∀ fuel ≥ N, packedDiv pack unpack mold divc fuel p ((lm, lc) :: w) = some (Q, R')) ∧
      PolyOK vc mc Q ∧ (∀ t ∈ Q, H t.1) ∧ PolyOK vc mc R' ∧ val p = val Q * val ((lm, lc) :: w) + val R' ∧
      ∀ t ∈ R', B t.1 ∧ ((∀ m1, H m1 → mul vc m1 lm ≠ t.1) ∨ ∃ k, k ≠ 0 ∧ t.2 = (divc k lc).2 ∧ t.2 ≠ 0) := by
  obtain ⟨L, _, r, hr⟩ := (gtN_lawful (Packed pack B)).exists_rank
  have hGB : ∀ t ∈ (lm, lc) :: w, B t.1 := fun t ht => C.gB _ (hG t ht)
  obtain ⟨N, Q, R', e1, e2, ⟨b, e3⟩, e4, e5⟩ := heapDiv_spec (emit := fun _ k2 => k2) (divc := divc) hr
    (gtN_wf (Packed pack B)) (C.divCompat M hG) (v1 := p.map fun t => (pack t.1, t.2))
    (fun x hx => by obtain ⟨t, ht, rfl⟩ := List.mem_map.1 hx; exact ⟨t.1, hp t ht, rfl⟩)
    (C.toCodec.canon_packed hp cp) (C.toCodec.canon_packed hGB cq) (by simp) (by
      intro k
      have h := hdiv k
      show k = (divc k lc).1 * lc + (if (divc k lc).2 = 0 then 0 else (divc k lc).2)
      split
      · rename_i h0; rw [h0] at h; exact h
      · exact h)
  have h0 : at_ (((lm, lc) :: w).map fun t => (pack t.1, t.2)) 0 = (pack lm, lc) := rfl
  have hQk : ∀ x ∈ Q, ∃ m1, H m1 ∧ B (mul vc m1 lm) ∧ pack m1 = x.1 := by
    intro x hx
    obtain ⟨k, ⟨m, hm, rfl⟩, a2, _⟩ := e3.each x hx
    rw [h0] at a2
    obtain ⟨m1, b1, b2, b3⟩ := (C.div m _ hm).1 a2
    exact ⟨m1, b1, by rw [b2]; exact hm, b3⟩
  have hQS : KeysIn (Packed pack B) Q := fun x hx => by
    obtain ⟨m1, a, _, c⟩ := hQk x hx
    exact ⟨m1, C.hB _ a, c⟩
  have hQc : Canon gtN Q := by
    refine ⟨?_, fun x hx => by obtain ⟨k, _, _, _, h⟩ := e3.each x hx; exact h⟩
    refine e3.dec.imp ?_
    rintro x y ⟨k, k', ⟨m, hm, rfl⟩, ⟨m', hm', rfl⟩, a3, a4, a5⟩
    rw [h0] at a3 a4
    obtain ⟨m1, b1, b2, b3⟩ := (C.div m _ hm).1 a3
    obtain ⟨m1', b1', b2', b3'⟩ := (C.div m' _ hm').1 a4
    rw [C.toCodec.gt_iff M hm hm', ← b2, ← b2'] at a5
    rw [← b3, ← b3', C.toCodec.gt_iff M (C.hB _ b1) (C.hB _ b1')]
    exact M.cancel (C.valid _ (C.hB _ b1)) (C.valid _ (C.hB _ b1')) (C.valid _ (C.gB _ C.lmG)) a5
  have hRS : KeysIn (Packed pack B) R' := fun x hx => (e5 x hx).1
  have hRc : Canon gtN R' := by
    refine ⟨?_, fun x hx => ?_⟩
    · exact e4.imp_of_mem fun ha hb hab => (hr.comp_iff _ _ (hRS _ ha) (hRS _ hb)).2 hab
    · rcases (e5 x hx).2 with h | ⟨k, _, h, h'⟩
      · exact h.2
      · rw [h']; exact h
  refine ⟨N, _, _, fun fuel hf => by unfold packedDiv; rw [e1 fuel hf]; rfl, C.toCodec.polyOK_unpacked M hQS hQc, ?_,
    C.toCodec.polyOK_unpacked M hRS hRc, ?_, ?_⟩
  · intro t ht
    obtain ⟨x, hx, rfl⟩ := List.mem_map.1 ht
    obtain ⟨m1, a, _, c⟩ := hQk x hx
    simp only
    rw [← c, C.round _ (C.hB _ a)]; exact a
  · rw [Codec.val_unpacked, Codec.val_unpacked, ← C.toCodec.den_packed hp, e2, C.toCodec.den_packed hGB]
  · intro t ht
    obtain ⟨x, hx, rfl⟩ := List.mem_map.1 ht
    obtain ⟨⟨m, hm, he⟩, h⟩ := e5 x hx
    unfold RemTerm at h
    rw [h0] at h
    simp only
    rw [← he, C.round _ hm]
    refine ⟨hm, ?_⟩
    rcases h with ⟨h, _⟩ | ⟨k, k0, h, h'⟩
    · left
      rintro m1 h1 h2
      have := (C.div m (pack m1) hm).2 ⟨m1, h1, h2, rfl⟩
      rw [he, h] at this
      exact absurd this (by simp)
    · right
      exact ⟨k, k0, h', by rw [h']; exact h⟩

/-- **exact packed division**: a quotient with recognised monomials is found -/
theorem packedDiv_exact [NoZeroDivisors R] (M : MonoOrd vc mc) {divc : R → R → R × R} {p h : PV Mono R} {lc : R} {w : PV Mono R}
    (hp : ∀ t ∈ p, B t.1) (cp : Canon mc p) (hG : ∀ t ∈ (lm, lc) :: w, G t.1) (cq : Canon mc ((lm, lc) :: w))
    (hdiv : ∀ k, k = (divc k lc).1 * lc + (divc k lc).2) (hexact : ∀ q, divc (q * lc) lc = (q, 0))
    (hh : PolyOK vc mc h) (hH : ∀ t ∈ h, H t.1) (he : val p = val h * val ((lm, lc) :: w)) :
    ∃ N, ∀ fuel ≥ N, packedDiv pack unpack mold divc fuel p ((lm, lc) :: w) = some (h, []) := by
  obtain ⟨N, Q, R', e1, e2, e3, e4, e5, e6⟩ := C.packedDiv_spec M hp cp hG cq hdiv
  have MS := monoSys (R := R) M (polyVars h ∪ polyVars Q ∪ polyVars R' ∪ polyVars ((lm, lc) :: w))
  have hq : PolyOK vc mc ((lm, lc) :: w) := ⟨fun t ht => C.valid _ (C.gB _ (hG t ht)), cq⟩
  obtain ⟨r1, r2⟩ := MS.rem_zero' (h := h) (Q := Q) (R' := R') (y := (lm, lc)) (w := w)
    (hh.keysIn (fun x hx => by simp [hx])) (e2.keysIn (fun x hx => by simp [hx])) (e4.keysIn (fun x hx => by simp [hx]))
    (hq.keysIn (fun x hx => by simp [hx])) hh.canon e2.canon e4.canon cq (by
      intro x hx
      rcases (e6 x hx).2 with h1 | ⟨k, k0, h1, h2⟩
      · left
        intro z hz
        rcases List.mem_append.1 hz with hz | hz
        · exact h1 _ (hH z hz)
        · exact h1 _ (e3 z hz)
      · right
        rintro q hq
        have hk := hdiv k
        have hk2 : k = ((divc k lc).1 + q) * lc := by rw [add_mul, ← show x.2 = q * lc from hq, h1]; exact hk
        have := hexact ((divc k lc).1 + q)
        rw [← hk2] at this
        rw [h1, this] at h2
        exact h2 rfl) (by
      have := he.symm.trans e5
      exact this)
  subst r1 r2
  exact ⟨N, e1⟩

end DivCodec
end CLPoly
