import Verif.Poly.DivCodecs
import Verif.Poly.Support

/-! # Polynomial division: `operator/`, `pair_vec_div` -/

namespace CLPoly
open Mono
variable {vc : Var → Var → Bool} {mc : Mono → Mono → Bool}

/-- restricting a division codec to a divisor-closed set of monomials -/
theorem DivCodec.restrict {pack : Mono → Nat} {unpack : Nat → Mono} {B : Mono → Prop} {mold : Nat} {lm : Mono} {H G : Mono → Prop}
    (C : DivCodec vc mc pack unpack B mold lm H G) (P : Mono → Prop) (hlm : P lm) (hG : ∀ y, G y → P y)
    (down : ∀ m1, H m1 → P (mul vc m1 lm) → P m1) (clo : ∀ m1 y, H m1 → P (mul vc m1 lm) → G y → P (mul vc m1 y)) :
    DivCodec vc mc pack unpack (fun m => B m ∧ P m) mold lm (fun m => H m ∧ P m) G where
  valid m h := C.valid m h.1
  round m h := C.round m h.1
  lt a b ha hb := C.lt a b ha.1 hb.1
  add a b ha hb hab := C.add a b ha.1 hb.1 hab.1
  lmG := C.lmG
  hB m h := ⟨C.hB m h.1, h.2⟩
  gB m h := ⟨C.gB m h, hG m h⟩
  div m k hm := by
    rw [C.div m k hm.1]
    constructor
    · rintro ⟨m1, a, b, c⟩
      exact ⟨m1, ⟨a, down m1 a (by rw [b]; exact hm.2)⟩, b, c⟩
    · rintro ⟨m1, a, b, c⟩
      exact ⟨m1, a.1, b, c⟩
  clo m1 y h1 h2 h3 := ⟨C.clo m1 y h1.1 h2.1 h3, clo m1 y h1.1 h2.2 h3⟩

/-- degree bound under which the grlex bit test is exact -/
def halfGr (n : Nat) : Int := if n ≤ 1 then 2 ^ 31 else 2 ^ (64 / (n + 1) - 1)

/-- the grlex division codec on monomials below the degree bound -/
theorem divCodecGr (ho : VarOrd vc) {vars : List Var} (hv : SortedVars vc vars) (hn0 : 0 < vars.length)
    (hl0 : 0 < 64 / (vars.length + 1)) {lm : Mono}
    (hlm : FitsGr vc vars lm) (hcap : lm.deg < halfGr vars.length) :
    DivCodec vc (grlexGt vc) (packGr vars) (unpackGr vars) (fun m => FitsGr vc vars m ∧ m.deg < halfGr vars.length)
      (moldGr vars.length) lm (fun m => FitsGr vc vars m ∧ m.deg < halfGr vars.length) (DivGr vc vars lm) := by
  by_cases hn : vars.length ≤ 1
  · have h1 : vars.length = 1 := by omega
    have hh : halfGr vars.length = 2 ^ 31 := by unfold halfGr; rw [if_pos hn]
    rw [hh] at hcap ⊢
    rw [h1]
    have C := (divCodecGr_single ho hv hn hlm).restrict (fun m => m.deg < 2 ^ 31) hcap
      (fun y hy => lt_of_le_of_lt hy.2 hcap) (fun m1 _ h => by
        have : m1.deg + lm.deg < 2 ^ 31 := h
        have := deg_nonneg hlm.valid
        omega) (fun m1 y _ h hy => by
        have : m1.deg + lm.deg < 2 ^ 31 := h
        show m1.deg + y.deg < 2 ^ 31
        have := hy.2
        omega)
    have heq : (fun m => (FitsGr vc vars m ∧ m.deg.toNat &&& moldGr 1 = 0) ∧ m.deg < 2 ^ 31) =
        fun m => FitsGr vc vars m ∧ m.deg < 2 ^ 31 := by
      funext m
      apply propext
      constructor
      · rintro ⟨⟨a, _⟩, b⟩; exact ⟨a, b⟩
      · rintro ⟨a, b⟩
        refine ⟨⟨a, ?_⟩, b⟩
        have h0 := deg_nonneg a.valid
        have e : moldGr 1 = 2 ^ 31 * (2 ^ 32 + 1) := by decide +kernel
        rw [e, and_split 31, Nat.mul_mod_right, Nat.and_zero, Nat.div_eq_of_lt (by omega), Nat.zero_and]
        exact ⟨rfl, rfl⟩
    rw [heq] at C
    exact C
  · have hn : 1 < vars.length := by omega
    have hh : halfGr vars.length = 2 ^ (64 / (vars.length + 1) - 1) := by unfold halfGr; rw [if_neg (by omega)]
    rw [hh] at hcap ⊢
    have C := (divCodecGr_many ho hv hn hl0 hlm hcap.le).restrict
      (fun m => m.deg < 2 ^ (64 / (vars.length + 1) - 1)) hcap
      (fun y hy => lt_of_le_of_lt hy.2 hcap) (fun m1 h _ => h.2) (fun m1 y _ h hy => by
        have : m1.deg + lm.deg < _ := h
        show m1.deg + y.deg < _
        have := hy.2
        omega)
    have heq : (fun m => (FitsGr vc vars m ∧ m.deg < 2 ^ (64 / (vars.length + 1) - 1)) ∧ m.deg < 2 ^ (64 / (vars.length + 1) - 1)) =
        fun m => FitsGr vc vars m ∧ m.deg < 2 ^ (64 / (vars.length + 1) - 1) := by
      funext m
      apply propext
      constructor
      · rintro ⟨⟨a, _⟩, b⟩; exact ⟨a, b⟩
      · rintro ⟨a, b⟩; exact ⟨⟨a, b⟩, b⟩
    rw [heq] at C
    exact C

variable {R : Type*} [CommRing R] [DecidableEq R]

theorem shl64_one {c : Nat} (h : c < 64) : shl64 1 c = 2 ^ c := by
  unfold shl64 shlW
  rw [Nat.mod_eq_of_lt h, one_mul, Nat.mod_eq_of_lt]
  rw [W_eq]; exact Nat.pow_lt_pow_right (by norm_num) h

/-- when the grlex test allows packing, the operands are below the bound (more than one variable) -/
theorem canPackGr_true (ho : VarOrd vc) {p q : PV Mono R} (hp : PolyOK vc (grlexGt vc) p) (hq : PolyOK vc (grlexGt vc) q)
    {vars : List Var} (h : canPackGr vc true p q = some vars) (hn : 1 < vars.length) :
    vars = pvVars vc q (pvVars vc p []) ∧ 0 < 64 / (vars.length + 1) ∧
      (∀ t ∈ p, t.1.deg < halfGr vars.length) ∧ (∀ t ∈ q, t.1.deg < halfGr vars.length) := by
  unfold canPackGr at h
  rw [noNeg_of_valid hp.monos, noNeg_of_valid hq.monos] at h
  simp only [Bool.not_true, Bool.or_false, Bool.false_eq_true, if_false, if_true] at h
  obtain ⟨c1, c2, c3⟩ := commonVars ho hp.monos hq.monos
  split at h
  · simp at h
  rename_i h1
  split at h
  · simp at h
  rename_i h2
  have hvars : pvVars vc q (pvVars vc p []) = vars := by simpa using h
  rw [hvars] at h1 h2 c1 c2 c3
  refine ⟨hvars.symm, ?_⟩
  have p1 := leadDeg_max ho hp
  have q1 := leadDeg_max ho hq
  have p0 : 0 ≤ leadDeg p := by
    cases p with
    | nil => exact le_rfl
    | cons t p => exact deg_nonneg (hp.monos t (by simp))
  have q0 : 0 ≤ leadDeg q := by
    cases q with
    | nil => exact le_rfl
    | cons t q => exact deg_nonneg (hq.monos t (by simp))
  have hsum : 1 ≤ leadDeg p + leadDeg q := by
    obtain ⟨v, hvm⟩ := List.exists_mem_of_length_pos (show 0 < vars.length by omega)
    rcases Finset.mem_union.1 ((c2 v).1 hvm) with hv | hv
    · obtain ⟨t, ht, hx⟩ := List.mem_flatMap.1 (List.mem_toFinset.1 hv)
      obtain ⟨x, hx', rfl⟩ := List.mem_map.1 hx
      have := (hp.monos t ht).pos x hx'
      have := le_deg (hp.monos t ht) hx'
      have := p1 t ht
      omega
    · obtain ⟨t, ht, hx⟩ := List.mem_flatMap.1 (List.mem_toFinset.1 hv)
      obtain ⟨x, hx', rfl⟩ := List.mem_map.1 hx
      have := (hq.monos t ht).pos x hx'
      have := le_deg (hq.monos t ht) hx'
      have := q1 t ht
      omega
  have hl0 : 0 < 64 / (vars.length + 1) := by
    by_contra hc
    have h0 : 64 / (vars.length + 1) = 0 := Nat.eq_zero_of_not_pos hc
    rw [h0] at h2
    apply h2
    refine ⟨hn, ?_⟩
    have : shl64 1 0 = 1 := by decide
    rw [this]; exact_mod_cast hsum
  have hl64 : 64 / (vars.length + 1) ≤ 21 := by
    have : 64 / (vars.length + 1) ≤ 64 / 3 := Nat.div_le_div_left (by omega) (by norm_num)
    omega
  refine ⟨hl0, ?_⟩
  have hs : shl64 1 (64 / (vars.length + 1) + 63) = 2 ^ (64 / (vars.length + 1) - 1) := by
    have e : (64 / (vars.length + 1) + 63) % 64 = 64 / (vars.length + 1) - 1 := by omega
    rw [← shl64_one (show 64 / (vars.length + 1) - 1 < 64 by omega)]
    unfold shl64
    rw [e, Nat.mod_eq_of_lt (show 64 / (vars.length + 1) - 1 < 64 by omega)]
  rw [hs] at h1
  have h1' : ¬ (max (leadDeg p) (leadDeg q) ≥ ((2 ^ (64 / (vars.length + 1) - 1) : ℕ) : ℤ)) := fun hc => h1 ⟨hn, hc⟩
  push_cast at h1'
  unfold halfGr
  rw [if_neg (by omega)]
  exact ⟨fun t ht => by have := p1 t ht; omega, fun t ht => by have := q1 t ht; omega⟩

/-- with the variable list, whatever the number of variables -/
theorem canPackGr_vars {p q : PV Mono R} {vars : List Var} {b : Bool} (h : canPackGr vc b p q = some vars) :
    vars = pvVars vc q (pvVars vc p []) := by
  unfold canPackGr at h
  simp only at h
  split at h
  · simp at h
  · split at h
    · split at h
      · simp at h
      · split at h
        · simp at h
        · simpa using h.symm
    · simpa using h.symm

theorem canPackLex_vars {p q : PV Mono R} {vars : List Var} {b : Bool} (h : canPackLex vc b p q = some vars) :
    vars = pvVars vc q (pvVars vc p []) := by
  unfold canPackLex at h
  simp only at h
  split at h
  · simp at h
  · split at h
    · split at h
      · simp at h
      · split at h
        · simp at h
        · simpa using h.symm
    · simpa using h.symm

/-- lex: packing is only allowed when all exponents are below half the field -/
theorem canPackLex_true (ho : VarOrd vc) {p q : PV Mono R} (hp : ∀ t ∈ p, Valid vc t.1) (hq : ∀ t ∈ q, Valid vc t.1)
    {vars : List Var} (h : canPackLex vc true p q = some vars) (hn : 1 < vars.length) :
    0 < 64 / vars.length ∧
      (∀ t ∈ p, ∀ v, E t.1.data v < 2 ^ (64 / vars.length - 1)) ∧ (∀ t ∈ q, ∀ v, E t.1.data v < 2 ^ (64 / vars.length - 1)) := by
  unfold canPackLex at h
  rw [noNeg_of_valid hp, noNeg_of_valid hq] at h
  simp only [Bool.not_true, Bool.or_false, Bool.false_eq_true, if_false, if_true] at h
  obtain ⟨c1, c2, c3⟩ := commonVars ho hp hq
  split at h
  · simp at h
  rename_i h1
  split at h
  · simp at h
  rename_i h2
  have hvars : pvVars vc q (pvVars vc p []) = vars := by simpa using h
  rw [hvars] at h1 h2 c1 c2 c3
  have p0 := (le_maxExp p).1
  have q0 := (le_maxExp q).1
  have hsum : 1 ≤ maxExp p + maxExp q := by
    obtain ⟨v, hvm⟩ := List.exists_mem_of_length_pos (show 0 < vars.length by omega)
    rcases Finset.mem_union.1 ((c2 v).1 hvm) with hv | hv
    · obtain ⟨t, ht, hx⟩ := List.mem_flatMap.1 (List.mem_toFinset.1 hv)
      obtain ⟨x, hx', rfl⟩ := List.mem_map.1 hx
      have := (hp t ht).pos x hx'
      have := (le_maxExp p).2 t ht x hx'
      omega
    · obtain ⟨t, ht, hx⟩ := List.mem_flatMap.1 (List.mem_toFinset.1 hv)
      obtain ⟨x, hx', rfl⟩ := List.mem_map.1 hx
      have := (hq t ht).pos x hx'
      have := (le_maxExp q).2 t ht x hx'
      omega
  have hl0 : 0 < 64 / vars.length := by
    by_contra hc
    have h0 : 64 / vars.length = 0 := Nat.eq_zero_of_not_pos hc
    rw [h0] at h2
    apply h2
    refine ⟨hn, ?_⟩
    have : shl64 1 0 = 1 := by decide
    rw [this]; exact_mod_cast hsum
  have hl64 : 64 / vars.length ≤ 32 := by
    have : 64 / vars.length ≤ 64 / 2 := Nat.div_le_div_left (by omega) (by norm_num)
    omega
  refine ⟨hl0, ?_⟩
  have hs : shl64 1 (64 / vars.length + 63) = 2 ^ (64 / vars.length - 1) := by
    have e : (64 / vars.length + 63) % 64 = 64 / vars.length - 1 := by omega
    rw [← shl64_one (show 64 / vars.length - 1 < 64 by omega)]
    unfold shl64
    rw [e, Nat.mod_eq_of_lt (show 64 / vars.length - 1 < 64 by omega)]
  rw [hs] at h1
  have h1' : ¬ (max (maxExp p) (maxExp q) ≥ ((2 ^ (64 / vars.length - 1) : ℕ) : ℤ)) := fun hc => h1 ⟨hn, hc⟩
  push_cast at h1'
  exact ⟨fun t ht v => by have := E_le_maxExp ho hp ht v; omega, fun t ht v => by have := E_le_maxExp ho hq ht v; omega⟩

end CLPoly

namespace CLPoly
open Mono
variable {vc : Var → Var → Bool} {R : Type*} [CommRing R] [DecidableEq R]

local instance divSpecDefault : Inhabited R := ⟨0⟩

/-- coefficient division with remainder that recognises exact quotients -/
structure CoefDiv (divc : R → R → R × R) : Prop where
  div : ∀ lc : R, lc ≠ 0 → ∀ k, k = (divc k lc).1 * lc + (divc k lc).2
  exact : ∀ lc : R, lc ≠ 0 → ∀ q, divc (q * lc) lc = (q, 0)

/-- what is known about the packed path of a division `p / q`, `q = (lm, lc) :: w`; `full`: the bit test recognises every
quotient monomial -/
def DivPlan (vc : Var → Var → Bool) (C : OrderCode R) (p q : PV Mono R) (full : Prop) : Prop :=
  ∀ lm lc w, q = (lm, lc) :: w → ∀ vars, C.can true p q = some vars →
    ∃ B H G, DivCodec vc C.mc (C.pack vars) (C.unpack vars) B (C.mold vars.length) lm H G ∧
      (∀ t ∈ p, B t.1) ∧ (∀ t ∈ q, G t.1) ∧
      (∀ h, PolyOK vc C.mc h → val p = val h * val q → ∀ t ∈ h, H t.1) ∧
      (full → ∀ m1, Valid vc m1 → B (mul vc m1 lm) → H m1) ∧ ∀ m, B m → ∀ x ∈ m.data, x.1 ∈ polyVars p ∪ polyVars q

theorem two_terms_vars {mc : Mono → Mono → Bool} (M : MonoOrd vc mc) {q : PV Mono R} (hq : PolyOK vc mc q) (h2 : 1 < q.length) :
    0 < (polyVars q).card := by
  match q, h2, hq with
  | a :: b :: w, _, hq =>
    by_contra hc
    have h0 : polyVars (a :: b :: w) = ∅ := by
      rw [← Finset.card_eq_zero]; omega
    have hdata : ∀ t ∈ a :: b :: w, t.1 = Mono.one := by
      intro t ht
      refine (hq.monos t ht).ext M.vo one_valid fun v => ?_
      by_cases hz : E t.1.data v = 0
      · rw [hz]; rfl
      · obtain ⟨x, hx, rfl⟩ := exists_of_E hz
        have := mem_polyVars ht hx
        rw [h0] at this
        simp at this
    have := (List.pairwise_cons.1 hq.canon.1).1 b (by simp)
    rw [hdata a (by simp), hdata b (by simp), M.lawful.irrefl _ one_valid] at this
    exact absurd this (by simp)

/-- the plan for grlex; with one variable the degrees must stay below `2^31` -/
theorem plan_gr [NoZeroDivisors R] (ho : VarOrd vc) {p q : PV Mono R} (hp : PolyOK vc (grlexGt vc) p)
    (hq : PolyOK vc (grlexGt vc) q) (h2 : 1 < q.length)
    (h31 : (polyVars p ∪ polyVars q).card = 1 → (∀ t ∈ p, t.1.deg < 2 ^ 31) ∧ ∀ t ∈ q, t.1.deg < 2 ^ 31) :
    DivPlan vc (codeGr R vc) p q True := by
  intro lm lc w hq' vars hcan
  have hvars := canPackGr_vars hcan
  obtain ⟨c1, c2, c3⟩ := commonVars ho hp.monos hq.monos
  rw [← hvars] at c1 c2 c3
  have hpos : 0 < vars.length := by
    rw [c3]
    exact lt_of_lt_of_le (two_terms_vars (grlex_ord ho) hq h2) (Finset.card_le_card Finset.subset_union_right)
  have hhalf : 0 < 64 / (vars.length + 1) ∧ (∀ t ∈ p, t.1.deg < halfGr vars.length) ∧ (∀ t ∈ q, t.1.deg < halfGr vars.length) := by
    by_cases hn : 1 < vars.length
    · exact (canPackGr_true ho hp hq hcan hn).2
    · have h1 : vars.length = 1 := by omega
      have := h31 (by omega)
      rw [h1]
      exact ⟨by norm_num, by simpa [halfGr] using this.1, by simpa [halfGr] using this.2⟩
  obtain ⟨l0, bp, bq⟩ := hhalf
  have hle : halfGr vars.length ≤ capGr vars.length := by
    unfold halfGr capGr
    split
    · norm_num
    · exact pow_le_pow_right₀ (by norm_num) (by omega)
  have fits : ∀ m : Mono, Valid vc m → (∀ x ∈ m.data, x.1 ∈ vars) → m.deg < halfGr vars.length → FitsGr vc vars m :=
    fun m a b c => ⟨a, b, lt_of_lt_of_le c hle⟩
  have sp : ∀ t ∈ p, ∀ x ∈ t.1.data, x.1 ∈ vars := fun t ht x hx =>
    (c2 _).2 (Finset.mem_union_left _ (mem_polyVars ht hx))
  have sq : ∀ t ∈ q, ∀ x ∈ t.1.data, x.1 ∈ vars := fun t ht x hx =>
    (c2 _).2 (Finset.mem_union_right _ (mem_polyVars ht hx))
  have lmq : (lm, lc) ∈ q := by rw [hq']; simp
  have hlm := fits lm (hq.monos _ lmq) (sq _ lmq) (bq _ lmq)
  refine ⟨_, _, _, divCodecGr ho c1 hpos l0 hlm (bq _ lmq), fun t ht => ⟨fits _ (hp.monos t ht) (sp t ht) (bp t ht), bp t ht⟩,
    ?_, ?_, ?_, fun m hm x hx => (c2 _).1 (hm.1.sub x hx)⟩
  · intro t ht
    refine ⟨fits _ (hq.monos t ht) (sq t ht) (bq t ht), ?_⟩
    have := leadDeg_max ho hq t ht
    rw [hq'] at this
    exact this
  · intro h hh he t ht
    have q0 : q ≠ [] := by rw [hq']; simp
    obtain ⟨u, hu, hle⟩ := factor_deg (grlex_ord ho) hp hq hh he q0 ht
    have hd : t.1.deg < halfGr vars.length := lt_of_le_of_lt hle (bp u hu)
    refine ⟨fits _ (hh.monos t ht) ?_ hd, hd⟩
    intro x hx
    exact (c2 _).2 (Finset.mem_union_left _ (factor_vars (grlex_ord ho) hp hq hh he q0 (mem_polyVars ht hx)))
  · rintro _ m1 hm1 ⟨hm, hd⟩
    have h0 := deg_nonneg hlm.valid
    have hd' : m1.deg + lm.deg < halfGr vars.length := hd
    have hd1 : m1.deg < halfGr vars.length := by omega
    exact ⟨fits m1 hm1 (quot_sub ho hm1 hm.valid hlm.valid rfl hm.sub) hd1, hd1⟩

/-- the plan for lex -/
theorem plan_lex [NoZeroDivisors R] (ho : VarOrd vc) {p q : PV Mono R} (hp : PolyOK vc (lexGt vc) p)
    (hq : PolyOK vc (lexGt vc) q) (h2 : 1 < q.length)
    (h63 : (∀ t ∈ p, t.1.deg < 2 ^ 63) ∧ ∀ t ∈ q, t.1.deg < 2 ^ 63) :
    DivPlan vc (codeLex R vc) p q ((polyVars p ∪ polyVars q).card = 1) := by
  intro lm lc w hq' vars hcan
  have hvars := canPackLex_vars hcan
  obtain ⟨c1, c2, c3⟩ := commonVars ho hp.monos hq.monos
  rw [← hvars] at c1 c2 c3
  have hpos : 0 < vars.length := by
    rw [c3]
    exact lt_of_lt_of_le (two_terms_vars (lex_ord ho) hq h2) (Finset.card_le_card Finset.subset_union_right)
  have sp : ∀ t ∈ p, ∀ x ∈ t.1.data, x.1 ∈ vars := fun t ht x hx =>
    (c2 _).2 (Finset.mem_union_left _ (mem_polyVars ht hx))
  have sq : ∀ t ∈ q, ∀ x ∈ t.1.data, x.1 ∈ vars := fun t ht x hx =>
    (c2 _).2 (Finset.mem_union_right _ (mem_polyVars ht hx))
  have lmq : (lm, lc) ∈ q := by rw [hq']; simp
  have q0 : q ≠ [] := by rw [hq']; simp
  by_cases hn : 1 < vars.length
  · obtain ⟨l0, bp, bq⟩ := canPackLex_true ho hp.monos hq.monos hcan hn
    have half : ∀ m : Mono, Valid vc m → (∀ x ∈ m.data, x.1 ∈ vars) → (∀ v, E m.data v < 2 ^ (64 / vars.length - 1)) →
        HalfLex vc vars m := by
      intro m a b c
      refine ⟨⟨a, b, ?_⟩, c⟩
      intro x hx
      have := c x.1
      rw [E_mem ho a.sorted hx] at this
      rw [if_neg (by omega)]
      refine lt_of_lt_of_le this (pow_le_pow_right₀ (by norm_num) (by omega))
    have hlm := half lm (hq.monos _ lmq) (sq _ lmq) (bq _ lmq)
    refine ⟨_, _, _, divCodecLex_many ho c1 hn l0 hlm, fun t ht => (half _ (hp.monos t ht) (sp t ht) (bp t ht)).1,
      fun t ht => half _ (hq.monos t ht) (sq t ht) (bq t ht), ?_, fun h1 => absurd h1 (by omega), fun m hm x hx => (c2 _).1 (hm.sub x hx)⟩
    intro h hh he t ht
    refine half _ (hh.monos t ht) ?_ ?_
    · intro x hx
      exact (c2 _).2 (Finset.mem_union_left _ (factor_vars (lex_ord ho) hp hq hh he q0 (mem_polyVars ht hx)))
    · intro v
      obtain ⟨u, hu, hle⟩ := factor_exp (lex_ord ho) hp hq hh he q0 ht v
      exact lt_of_le_of_lt hle (bp u hu v)
  · have h1 : vars.length = 1 := by omega
    obtain ⟨x0, hx0⟩ : ∃ w, vars = [w] := List.length_eq_one_iff.1 h1
    have fits : ∀ m : Mono, Valid vc m → (∀ x ∈ m.data, x.1 ∈ vars) → m.deg < 2 ^ 63 → FitsLex vc vars m := by
      intro m a b c
      refine ⟨a, b, ?_⟩
      intro x hx
      have := le_deg a hx
      rw [if_pos (by omega)]
      omega
    have hlm := fits lm (hq.monos _ lmq) (sq _ lmq) (h63.2 _ lmq)
    have hmold : (codeLex R vc).mold vars.length = moldLex 1 := by rw [h1]; rfl
    rw [hmold]
    have hEd : ∀ m, Valid vc m → (∀ x ∈ m.data, x.1 ∈ vars) → E m.data x0 = m.deg := fun m a b =>
      single_E ho c1 (by omega) a b x0 (by rw [hx0]; simp)
    refine ⟨_, _, _, divCodecLex_single ho c1 hx0 hlm, fun t ht => fits _ (hp.monos t ht) (sp t ht) (h63.1 t ht), ?_, ?_, ?_,
      fun m hm x hx => (c2 _).1 (hm.sub x hx)⟩
    · intro t ht
      refine ⟨fits _ (hq.monos t ht) (sq t ht) (h63.2 t ht), ?_⟩
      rw [hq'] at ht
      rcases List.mem_cons.1 ht with rfl | ht'
      · exact le_rfl
      · have hc := hq.canon.1
        rw [hq'] at hc
        have := (List.pairwise_cons.1 hc).1 t ht'
        have htq : t ∈ q := by rw [hq']; exact ht
        rw [lexGt, pvComp_iff ho (hq.monos _ lmq).sorted (hq.monos t htq).sorted (hq.monos _ lmq).pos (hq.monos t htq).pos] at this
        obtain ⟨u, hu, _⟩ := this
        have hu0 := E_nonneg (hq.monos t htq).pos u
        obtain ⟨x, hx, rfl⟩ := exists_of_E (show E lm.data u ≠ 0 by simp only at hu; omega)
        have hxm := sq _ lmq x hx
        rw [hx0, List.mem_singleton] at hxm
        rw [hxm] at hu
        exact hu.le
    · intro h hh he t ht
      obtain ⟨u, hu, hle⟩ := factor_deg (lex_ord ho) hp hq hh he q0 ht
      refine fits _ (hh.monos t ht) ?_ (lt_of_le_of_lt hle (h63.1 u hu))
      intro x hx
      exact (c2 _).2 (Finset.mem_union_left _ (factor_vars (lex_ord ho) hp hq hh he q0 (mem_polyVars ht hx)))
    · intro _ m1 hm1 hm
      have hs := quot_sub ho hm1 hm.valid hlm.valid rfl hm.sub
      refine fits m1 hm1 hs ?_
      have hmd : E (mul vc m1 lm).data x0 < 2 ^ 63 := by
        have := hm.cap' ho (E (mul vc m1 lm).data x0).toNat (by rw [hx0]; simp [digs])
        rw [if_pos (by omega)] at this
        omega
      rw [hEd _ hm.valid hm.sub] at hmd
      have h0 := deg_nonneg hlm.valid
      have : m1.deg + lm.deg < 2 ^ 63 := hmd
      omega

section spec
variable [NoZeroDivisors R] {C : OrderCode R} (M : MonoOrd vc C.mc) {divc : R → R → R × R} (D : CoefDiv divc)
  {p q : PV Mono R} (hp : PolyOK vc C.mc p) (hq : PolyOK vc C.mc q) (q0 : q ≠ [])
include M D hp hq q0

/-- **exact division** -/
theorem polyDiv_exact {full : Prop} (plan : 1 < q.length → DivPlan vc C p q full) {h : PV Mono R} (hh : PolyOK vc C.mc h)
    (he : val p = val h * val q) : ∃ N, ∀ fuel ≥ N, polyDiv vc C divc fuel p q = some (some h) := by
  have MS := monoSys (R := R) M (polyVars p ∪ polyVars q ∪ polyVars h)
  have generic := MS.pvDiv_exact (divc := divc) (hp.keysIn (fun x hx => by simp [hx])) (hq.keysIn (fun x hx => by simp [hx]))
    (hh.keysIn (fun x hx => by simp [hx])) hp.canon hq.canon hh.canon q0 D.div D.exact he
  match q, hq, q0, plan, he, generic with
  | [t], _, _, _, _, generic => exact generic
  | a :: b :: w, hq, _, plan, he, generic =>
    by_cases hp0 : p = []
    · refine ⟨0, fun fuel _ => ?_⟩
      have hqv : val (a :: b :: w) ≠ 0 := fun e => by simpa using (hq.val_eq_zero M).1 e
      rw [hp0, val_nil] at he
      rw [(hh.val_eq_zero M).1 ((mul_eq_zero.1 he.symm).resolve_right hqv)]
      simp [polyDiv, hp0]
    · cases hcan : C.can true p (a :: b :: w) with
      | none =>
        obtain ⟨N, hN⟩ := generic
        refine ⟨N, fun fuel hf => ?_⟩
        have := hN fuel hf
        simp only [polyDiv, hp0, if_false, hcan]
        simpa only [pvDiv, hp0, if_false] using this
      | some vars =>
        obtain ⟨B, H, G, DC, b1, b2, b3, b4, b5⟩ := plan (by simp) a.1 a.2 (b :: w) rfl vars hcan
        have ha : a.2 ≠ 0 := hq.canon.2 a (by simp)
        obtain ⟨N, hN⟩ := DC.packedDiv_exact M b1 hp.canon b2 hq.canon (D.div _ ha) (D.exact _ ha) hh (b3 h hh he) he
        refine ⟨N, fun fuel hf => ?_⟩
        simp only [polyDiv, hp0, if_false, hcan]
        rw [show a :: b :: w = (a.1, a.2) :: b :: w from rfl, hN fuel hf]; rfl

/-- **division with remainder**: quotient canonical, empty remainder iff divisible -/
theorem polyDivRem_test {full : Prop} (plan : 1 < q.length → DivPlan vc C p q full) :
    ∃ N Q R', (∀ fuel ≥ N, polyDivRem vc C divc fuel p q = some (some (Q, R'))) ∧ PolyOK vc C.mc Q ∧
      (R' = [] → val p = val Q * val q) ∧ ∀ h, PolyOK vc C.mc h → val p = val h * val q → Q = h ∧ R' = [] := by
  have generic : ∃ N Q R', (∀ fuel ≥ N, pvDivRem (mul vc) (divExact vc) divc C.mc fuel p q = some (some (Q, R'))) ∧ PolyOK vc C.mc Q ∧
      (R' = [] → val p = val Q * val q) ∧ ∀ h, PolyOK vc C.mc h → val p = val h * val q → Q = h ∧ R' = [] := by
    have MS := monoSys (R := R) M (polyVars p ∪ polyVars q)
    obtain ⟨N, Q, R', a1, a2, a3, a4, a5⟩ := MS.pvDivRem_test (divc := divc) (hp.keysIn (fun x hx => by simp [hx]))
      (hq.keysIn (fun x hx => by simp [hx])) hp.canon hq.canon q0 D.div D.exact
    refine ⟨N, Q, R', a1, .of_keysIn a2 a3, a4, ?_⟩
    intro h hh he
    exact a5 h (hh.keysIn ((factor_vars M hp hq hh he q0).trans Finset.subset_union_left)) hh.canon he
  match q, hq, q0, plan, generic with
  | [t], _, _, _, generic => exact generic
  | a :: b :: w, hq, _, plan, generic =>
    by_cases hp0 : p = []
    · obtain ⟨N, Q, R', g1, g2⟩ := generic
      refine ⟨N, Q, R', fun fuel hf => ?_, g2⟩
      rw [← g1 fuel hf]
      simp [polyDivRem, pvDivRem, hp0]
    · cases hcan : C.can true p (a :: b :: w) with
      | none =>
        obtain ⟨N, Q, R', g1, g2⟩ := generic
        refine ⟨N, Q, R', fun fuel hf => ?_, g2⟩
        have := g1 fuel hf
        simp only [polyDivRem, hp0, if_false, hcan]
        simpa only [pvDivRem, hp0, if_false] using this
      | some vars =>
        obtain ⟨B, H, G, DC, b1, b2, b3, b4, b5⟩ := plan (by simp) a.1 a.2 (b :: w) rfl vars hcan
        have ha : a.2 ≠ 0 := hq.canon.2 a (by simp)
        obtain ⟨N, Q, R', e1, e2, e3, e4, e5, e6⟩ := DC.packedDiv_spec M (divc := divc) b1 hp.canon b2 hq.canon (D.div _ ha)
        refine ⟨N, Q, R', fun fuel hf => ?_, e2, ?_, ?_⟩
        · simp only [polyDivRem, hp0, if_false, hcan]
          rw [show a :: b :: w = (a.1, a.2) :: b :: w from rfl, e1 fuel hf]; rfl
        · rintro rfl
          rw [val_nil, add_zero] at e5
          exact e5
        · intro h hh he
          obtain ⟨N', hN'⟩ := DC.packedDiv_exact M b1 hp.canon b2 hq.canon (D.div _ ha) (D.exact _ ha) hh (b3 h hh he) he
          have h1 := e1 (max N N') (le_max_left _ _)
          rw [hN' (max N N') (le_max_right _ _)] at h1
          simpa [eq_comm] using h1

omit D in
/-- division with remainder over a field; the remainder has no new variables -/
theorem polyDivRem_field_vars {full : Prop} (plan : 1 < q.length → DivPlan vc C p q full)
    (hdiv : ∀ lc : R, lc ≠ 0 → ∀ k, k = (divc k lc).1 * lc ∧ (divc k lc).2 = 0) :
    ∃ N Q R', (∀ fuel ≥ N, polyDivRem vc C divc fuel p q = some (some (Q, R'))) ∧ PolyOK vc C.mc Q ∧ PolyOK vc C.mc R' ∧
      val p = val Q * val q + val R' ∧ (full → ∀ t ∈ R', ∀ lt ∈ q.head?, ∀ m, Valid vc m → mul vc m lt.1 ≠ t.1) ∧ ∀ t ∈ R', ∀ x ∈ t.1.data, x.1 ∈ polyVars p ∪ polyVars q := by
  have generic : ∃ N Q R', (∀ fuel ≥ N, pvDivRem (mul vc) (divExact vc) divc C.mc fuel p q = some (some (Q, R'))) ∧ PolyOK vc C.mc Q ∧
      PolyOK vc C.mc R' ∧ val p = val Q * val q + val R' ∧
      (full → ∀ t ∈ R', ∀ lt ∈ q.head?, ∀ m, Valid vc m → mul vc m lt.1 ≠ t.1) ∧ ∀ t ∈ R', ∀ x ∈ t.1.data, x.1 ∈ polyVars p ∪ polyVars q := by
    have MS := monoSys (R := R) M (polyVars p ∪ polyVars q)
    obtain ⟨N, Q, R', a1, a2, a3, a4, a5, a6, a7⟩ := MS.pvDivRem_field (divc := divc) (hp.keysIn (fun x hx => by simp [hx]))
      (hq.keysIn (fun x hx => by simp [hx])) hp.canon hq.canon q0 hdiv
    refine ⟨N, Q, R', a1, .of_keysIn a2 a3, .of_keysIn a4 a5, a6, ?_, fun t ht => (a4 t ht).2⟩
    intro _ t ht lt hlt m hm he
    have h1 := a7 t ht lt hlt
    have hltq : lt ∈ q := by
      cases q with
      | nil => exact absurd rfl q0
      | cons y w => simp at hlt; subst hlt; simp
    have kt := a4 t ht
    have kl := (hq.keysIn (V := polyVars p ∪ polyVars q) (fun x hx => by simp [hx])) lt hltq
    have hmV : ValidIn vc (polyVars p ∪ polyVars q) m := by
      refine ⟨hm, fun x hx => ?_⟩
      have := quot_sub (vars := (polyVars p ∪ polyVars q).toList) M.vo hm kt.1 kl.1 he (fun y hy => Finset.mem_toList.2 (kt.2 y hy)) x hx
      exact Finset.mem_toList.1 this
    have := (divExact_iff M.vo kt kl (q := m)).2 ⟨hmV, he⟩
    rw [h1] at this
    exact absurd this (by simp)
  match q, hq, q0, plan, generic with
  | [t], _, _, _, generic => exact generic
  | a :: b :: w, hq, _, plan, generic =>
    by_cases hp0 : p = []
    · obtain ⟨N, Q, R', g1, g2⟩ := generic
      refine ⟨N, Q, R', fun fuel hf => ?_, g2⟩
      rw [← g1 fuel hf]
      simp [polyDivRem, pvDivRem, hp0]
    · cases hcan : C.can true p (a :: b :: w) with
      | none =>
        obtain ⟨N, Q, R', g1, g2⟩ := generic
        refine ⟨N, Q, R', fun fuel hf => ?_, g2⟩
        have := g1 fuel hf
        simp only [polyDivRem, hp0, if_false, hcan]
        simpa only [pvDivRem, hp0, if_false] using this
      | some vars =>
        obtain ⟨B, H, G, DC, b1, b2, b3, b4, b5⟩ := plan (by simp) a.1 a.2 (b :: w) rfl vars hcan
        have ha : a.2 ≠ 0 := hq.canon.2 a (by simp)
        obtain ⟨N, Q, R', e1, e2, e3, e4, e5, e6⟩ := DC.packedDiv_spec M (divc := divc) b1 hp.canon b2 hq.canon
          (fun k => by have := hdiv _ ha k; rw [this.2, add_zero]; exact this.1)
        refine ⟨N, Q, R', fun fuel hf => ?_, e2, e4, e5, ?_, fun t ht x hx => b5 _ (e6 t ht).1 x hx⟩
        · simp only [polyDivRem, hp0, if_false, hcan]
          rw [show a :: b :: w = (a.1, a.2) :: b :: w from rfl, e1 fuel hf]; rfl
        · intro hf t ht lt hlt m hm he
          simp only [List.head?_cons, Option.mem_some_iff] at hlt
          subst hlt
          obtain ⟨hB, h1⟩ := e6 t ht
          rcases h1 with h1 | ⟨k, _, h1, h2⟩
          · exact h1 m (b4 hf m hm (by rw [he]; exact hB)) he
          · rw [h1, (hdiv _ ha k).2] at h2; exact h2 rfl

omit D in
/-- **division with remainder over a field** -/
theorem polyDivRem_field {full : Prop} (plan : 1 < q.length → DivPlan vc C p q full)
    (hdiv : ∀ lc : R, lc ≠ 0 → ∀ k, k = (divc k lc).1 * lc ∧ (divc k lc).2 = 0) :
    ∃ N Q R', (∀ fuel ≥ N, polyDivRem vc C divc fuel p q = some (some (Q, R'))) ∧ PolyOK vc C.mc Q ∧ PolyOK vc C.mc R' ∧
      val p = val Q * val q + val R' ∧ (full → ∀ t ∈ R', ∀ lt ∈ q.head?, ∀ m, Valid vc m → mul vc m lt.1 ≠ t.1) := by
  obtain ⟨N, Q, R', a1, a2, a3, a4, a5, -⟩ := polyDivRem_field_vars M hp hq q0 plan hdiv
  exact ⟨N, Q, R', a1, a2, a3, a4, a5⟩

end spec
end CLPoly
