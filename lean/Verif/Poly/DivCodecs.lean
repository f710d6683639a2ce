import Verif.Poly.PackedDiv
import Verif.Poly.Mold

/-! # The division codecs of grlex and lex -/

namespace CLPoly
open Mono
variable {vc : Var → Var → Bool}

/-- a pointwise larger monomial is a multiple -/
theorem exists_quot (ho : VarOrd vc) {m l : Mono} (hm : Valid vc m) (hl : Valid vc l) (h : ∀ v, E l.data v ≤ E m.data v) :
    ∃ q, Valid vc q ∧ mul vc q l = m := by
  have hc := pvSub_canon (comp := vc) ho (keysTrue m.data) (keysTrue l.data) hm.canon hl.canon
  have hq : Valid vc ⟨pvSub vc m.data l.data, m.deg - l.deg⟩ := by
    refine ⟨hc.1, ?_, ?_⟩
    · apply pos_of_E ho hc
      intro v
      rw [E_pvSub]
      have := h v
      show 0 ≤ E m.data v - E l.data v
      omega
    · show m.deg - l.deg = _
      rw [hm.deg, hl.deg]; exact (sum_pvSub _ _).symm
  refine ⟨_, hq, (mul_valid ho hq hl).ext ho hm fun v => ?_⟩
  rw [E_mul]
  show E (pvSub vc m.data l.data) v + E l.data v = _
  rw [E_pvSub]
  show E m.data v - E l.data v + E l.data v = _
  omega

theorem quot_E {q l m : Mono} (h : mul vc q l = m) (v : Var) : E q.data v = E m.data v - E l.data v := by
  rw [← h, E_mul]; simp

theorem quot_sub (ho : VarOrd vc) {q l m : Mono} (hq : Valid vc q) (hm : Valid vc m) (hl : Valid vc l) (h : mul vc q l = m) {vars : List Var}
    (hs : ∀ x ∈ m.data, x.1 ∈ vars) : ∀ x ∈ q.data, x.1 ∈ vars := by
  intro x hx
  have h1 := hq.pos x hx
  have h2 := quot_E h x.1
  rw [E_mem ho hq.sorted hx] at h2
  have h3 := E_nonneg hl.pos x.1
  have : E m.data x.1 ≠ 0 := by omega
  obtain ⟨y, hy, e⟩ := exists_of_E this
  rw [← e]; exact hs y hy

theorem subW_addW {x y : Nat} (hx : x < W) (hy : y < W) : subW (addW x y) y = x := by
  unfold subW addW
  rw [Nat.mod_eq_of_lt hy, Nat.mod_add_mod, show x + y + (W - y) = x + W by omega, Nat.add_mod_right, Nat.mod_eq_of_lt hx]

/-- list form of the digit condition -/
theorem zip_iff {α : Type*} (vars : List α) (f g : α → Nat) (Hf : Nat) :
    (∃ c : List Nat, c.length = (vars.map f).length ∧ (∀ d ∈ c, d < Hf) ∧ vars.map f = List.zipWith (· + ·) c (vars.map g)) ↔
      ∀ v ∈ vars, g v ≤ f v ∧ f v - g v < Hf := by
  induction vars with
  | nil => simp
  | cons v vars ih =>
    rw [List.forall_mem_cons, ← ih]
    constructor
    · rintro ⟨c, c1, c2, c3⟩
      cases c with
      | nil => simp at c1
      | cons d c =>
        simp only [List.map_cons, List.zipWith_cons_cons, List.cons.injEq] at c3
        have := c2 d (by simp)
        refine ⟨by omega, c, by simpa using c1, fun x hx => c2 x (List.mem_cons_of_mem _ hx), c3.2⟩
    · rintro ⟨h, c, c1, c2, c3⟩
      refine ⟨(f v - g v) :: c, by simpa using c1, ?_, ?_⟩
      · intro d hd
        rcases List.mem_cons.1 hd with rfl | hd
        · exact h.2
        · exact c2 d hd
      · simp only [List.map_cons, List.zipWith_cons_cons, List.cons.injEq]
        exact ⟨by omega, c3⟩

/-- a codec whose bit test is characterised on monomials yields a division codec -/
theorem divx_of_test (ho : VarOrd vc) {mc : Mono → Mono → Bool} {pack : Mono → Nat} {unpack : Nat → Mono} {B H : Mono → Prop} {mold : Nat} {lm : Mono}
    (C : Codec vc mc pack unpack B) (hpack : ∀ m, B m → pack m < W) (hlm : B lm) (hH : ∀ m, H m → B m)
    (test : ∀ m, B m → (subW (pack m) (pack lm) &&& mold = 0 ↔ ∃ m1, H m1 ∧ mul vc m1 lm = m)) (m : Mono) (k : Nat) (hm : B m) :
    packedDivx mold (pack m) (pack lm) = some k ↔ ∃ m1, H m1 ∧ mul vc m1 lm = m ∧ pack m1 = k := by
  unfold packedDivx
  have hsub : ∀ m1, H m1 → mul vc m1 lm = m → subW (pack m) (pack lm) = pack m1 := by
    rintro m1 h1 rfl
    rw [← C.add _ _ (hH _ h1) hlm hm]
    exact subW_addW (hpack _ (hH _ h1)) (hpack _ hlm)
  constructor
  · intro h
    split at h
    · rename_i h0
      obtain ⟨m1, a, b⟩ := (test m hm).1 h0
      refine ⟨m1, a, b, ?_⟩
      rw [← hsub m1 a b]; simpa using h
    · simp at h
  · rintro ⟨m1, a, b, rfl⟩
    rw [if_pos ((test m hm).2 ⟨m1, a, b⟩), hsub m1 a b]

/-! ## grlex -/

section gr
variable (ho : VarOrd vc) {vars : List Var} (hv : SortedVars vc vars)
include ho hv

omit ho hv in
theorem E_toNat_le {a b : Mono} (ha : Valid vc a) (hb : Valid vc b) {vars : List Var} (hs : ∀ x ∈ a.data, x.1 ∈ vars)
    (h : ∀ v ∈ vars, (E a.data v).toNat ≤ (E b.data v).toNat) (v : Var) : E a.data v ≤ E b.data v := by
  have hb0 := E_nonneg hb.pos v
  by_cases h0 : E a.data v = 0
  · omega
  · obtain ⟨x, hx, rfl⟩ := exists_of_E h0
    have := h _ (hs x hx)
    omega

theorem packGr_lt_W {m : Mono} (h : FitsGr vc vars m) : packGr vars m < W := by
  by_cases hn : 1 < vars.length
  · rw [packGr_many ho hv h hn]
    have hcap := h.cap
    rw [if_neg (by omega)] at hcap
    have h0 := deg_nonneg h.valid
    have hd := digs_lt (vars := vars) ho h.valid.sorted h.valid.pos (B := 2 ^ (64 / (vars.length + 1))) (by positivity) (fun x hx => by
      have := le_deg h.valid hx
      push_cast; omega)
    have := num_lt (2 ^ (64 / (vars.length + 1))) (m.deg.toNat :: digs vars m.data) (by
      intro d hd'
      rcases List.mem_cons.1 hd' with rfl | hd'
      · zify; rw [Int.toNat_of_nonneg h0]; exact hcap
      · exact hd d hd')
    rw [num_cons, zero_mul, zero_add] at this
    refine lt_of_lt_of_le this ?_
    rw [List.length_cons, digs_length, ← pow_mul, W_eq]
    exact Nat.pow_le_pow_right (by norm_num) (Nat.div_mul_le_self _ _)
  · rw [packGr_single h (by omega)]
    have hcap := h.cap
    rw [if_pos (by omega)] at hcap
    rw [W_eq]; omega

/-- divisor monomials: they fit and do not exceed the degree of the leading monomial -/
def DivGr (vc : Var → Var → Bool) (vars : List Var) (lm y : Mono) : Prop := FitsGr vc vars y ∧ y.deg ≤ lm.deg

theorem divCodecGr_many (hn : 1 < vars.length) (hl0 : 0 < 64 / (vars.length + 1)) {lm : Mono} (hlm : FitsGr vc vars lm)
    (hcap : lm.deg ≤ 2 ^ (64 / (vars.length + 1) - 1)) :
    DivCodec vc (grlexGt vc) (packGr vars) (unpackGr vars) (FitsGr vc vars) (moldGr vars.length) lm
      (fun m => FitsGr vc vars m ∧ m.deg < 2 ^ (64 / (vars.length + 1) - 1)) (DivGr vc vars lm) := by
  have C := codecGr ho hv
  refine { C with
    lmG := ⟨hlm, le_rfl⟩
    hB := fun m h => h.1
    gB := fun m h => h.1
    div := divx_of_test ho C (fun m h => packGr_lt_W ho hv h) hlm (fun m h => h.1) ?_
    clo := ?_ }
  · intro m hm
    set l := 64 / (vars.length + 1) with hl
    have hl1 : l * (vars.length + 1) ≤ 64 := Nat.div_mul_le_self _ _
    have m0 := deg_nonneg hm.valid
    have lm0 := deg_nonneg hlm.valid
    have hmc := hm.cap
    have hlc := hlm.cap
    rw [if_neg (by omega), ← hl] at hmc hlc
    have hmd := digs_lt (vars := vars) ho hm.valid.sorted hm.valid.pos (B := 2 ^ l) (by positivity) (fun x hx => by
      have := le_deg hm.valid hx
      push_cast; omega)
    have hT := mold_test (l := l) hl0 (a := m.deg.toNat :: digs vars m.data) (b := lm.deg.toNat :: digs vars lm.data)
      (by simp [digs_length]) (by rw [List.length_cons, digs_length]; exact hl1) (by
        intro d hd
        rcases List.mem_cons.1 hd with rfl | hd
        · zify; rw [Int.toNat_of_nonneg m0]; exact hmc
        · exact hmd d hd) (by
        intro d hd
        rcases List.mem_cons.1 hd with rfl | hd
        · zify; rw [Int.toNat_of_nonneg lm0]; exact hcap
        · obtain ⟨v, _, rfl⟩ := List.mem_map.1 hd
          zify
          rw [Int.toNat_of_nonneg (E_nonneg hlm.valid.pos v)]
          by_cases h0 : E lm.data v = 0
          · rw [h0]; positivity
          · obtain ⟨x, hx, rfl⟩ := exists_of_E h0
            rw [E_mem ho hlm.valid.sorted hx]
            have := le_deg hlm.valid hx
            omega)
    rw [num_cons, num_cons, zero_mul, zero_add, zero_add, List.length_cons, digs_length, ← packGr_many ho hv hm hn,
      ← packGr_many ho hv hlm hn] at hT
    unfold moldGr
    rw [← hl, hT]
    constructor
    · rintro ⟨c, c1, c2, c3⟩
      cases c with
      | nil => simp at c1
      | cons d c =>
        rw [List.zipWith_cons_cons, List.cons.injEq] at c3
        have hz := (zip_iff vars (fun v => (E m.data v).toNat) (fun v => (E lm.data v).toNat) (2 ^ (l - 1))).1
          ⟨c, by simp only [List.length_cons] at c1; simpa using c1,
            fun x hx => c2 x (List.mem_cons_of_mem _ hx), c3.2⟩
        obtain ⟨q, q1, q2⟩ := exists_quot ho hm.valid hlm.valid
          (E_toNat_le hlm.valid hm.valid hlm.sub fun v hvv => (hz v hvv).1)
        have hd : q.deg + lm.deg = m.deg := by rw [← q2]; rfl
        have hdd := c2 d (by simp)
        have hq0 := deg_nonneg q1
        have hdeg : q.deg < 2 ^ (l - 1) := by
          have : (d : Int) < 2 ^ (l - 1) := by exact_mod_cast hdd
          have := c3.1
          omega
        refine ⟨q, ⟨⟨q1, quot_sub ho q1 hm.valid hlm.valid q2 hm.sub, ?_⟩, hdeg⟩, q2⟩
        rw [if_neg (by omega), ← hl]; omega
    · rintro ⟨q, ⟨q1, q3⟩, q2⟩
      have hd : q.deg + lm.deg = m.deg := by rw [← q2]; rfl
      have hq0 := deg_nonneg q1.valid
      refine ⟨q.deg.toNat :: digs vars q.data, by simp [digs_length], ?_, ?_⟩
      · intro d hdm
        rcases List.mem_cons.1 hdm with rfl | hdm
        · zify; rw [Int.toNat_of_nonneg hq0]; exact q3
        · obtain ⟨v, _, rfl⟩ := List.mem_map.1 hdm
          zify
          rw [Int.toNat_of_nonneg (E_nonneg q1.valid.pos v)]
          by_cases h0 : E q.data v = 0
          · rw [h0]; positivity
          · obtain ⟨x, hx, rfl⟩ := exists_of_E h0
            rw [E_mem ho q1.valid.sorted hx]
            have := le_deg q1.valid hx
            omega
      · rw [List.zipWith_cons_cons, List.cons.injEq]
        refine ⟨by omega, ?_⟩
        rw [← q2, digs_mul vars q1.valid hlm.valid]
        unfold digs
        rw [List.zipWith_map, List.zipWith_self]
  · rintro m1 y ⟨h1, h2⟩ h3 ⟨h4, h5⟩
    refine ⟨mul_valid ho h1.valid h4.valid, mul_sub ho h1.valid h4.valid h1.sub h4.sub, ?_⟩
    have := h3.cap
    refine lt_of_le_of_lt ?_ this
    show m1.deg + y.deg ≤ m1.deg + lm.deg
    omega

/-- with one variable every monomial is determined by its degree -/
theorem single_E {m : Mono} (hn : vars.length ≤ 1) (hm : Valid vc m) (hs : ∀ x ∈ m.data, x.1 ∈ vars) (v : Var) (hvv : v ∈ vars) :
    E m.data v = m.deg := by
  have hvars : vars = [v] := by
    match vars, hn, hvv with
    | [w], _, hvv => simp at hvv; rw [hvv]
  rw [hm.deg, sum_E_le (V := {v}) m.data (fun y hy => by have := hs y hy; rw [hvars] at this; simpa using this)]
  simp

omit ho hv in
theorem and_moldW {x : Nat} (mold : Nat) (hx : x < W) (hx2 : 2 ^ 63 ≤ x) (hb : mold.testBit 63 = true) : x &&& mold ≠ 0 := by
  intro h
  have h1 : (x &&& mold).testBit 63 = true := by
    rw [Nat.testBit_and, hb, Bool.and_true, Nat.testBit_eq_decide_div_mod_eq, decide_eq_true_eq]
    have : x / 2 ^ 63 = 1 := by
      rw [W_eq] at hx
      rw [Nat.div_eq_iff (by positivity)]
      constructor <;> omega
    rw [this]
  rw [h] at h1
  simp at h1

theorem divCodecGr_single (hn : vars.length ≤ 1) {lm : Mono} (hlm : FitsGr vc vars lm) :
    DivCodec vc (grlexGt vc) (packGr vars) (unpackGr vars) (FitsGr vc vars) (moldGr 1) lm
      (fun m => FitsGr vc vars m ∧ m.deg.toNat &&& moldGr 1 = 0) (DivGr vc vars lm) := by
  have C := codecGr ho hv
  refine { C with
    lmG := ⟨hlm, le_rfl⟩
    hB := fun m h => h.1
    gB := fun m h => h.1
    div := divx_of_test ho C (fun m h => packGr_lt_W ho hv h) hlm (fun m h => h.1) ?_
    clo := ?_ }
  · intro m hm
    have m0 := deg_nonneg hm.valid
    have lm0 := deg_nonneg hlm.valid
    have hmc := hm.cap
    have hlc := hlm.cap
    rw [if_pos hn] at hmc hlc
    rw [packGr_single hm hn, packGr_single hlm hn]
    by_cases hle : lm.deg ≤ m.deg
    · have e : subW m.deg.toNat lm.deg.toNat = (m.deg - lm.deg).toNat := by
        unfold subW
        rw [W_eq, Nat.mod_eq_of_lt (show lm.deg.toNat < 2 ^ 64 by omega),
          show m.deg.toNat + (2 ^ 64 - lm.deg.toNat) = (m.deg - lm.deg).toNat + 2 ^ 64 by omega,
          Nat.add_mod_right, Nat.mod_eq_of_lt (by omega)]
      rw [e]
      constructor
      · intro h
        obtain ⟨q, q1, q2⟩ := exists_quot ho hm.valid hlm.valid
          (E_toNat_le hlm.valid hm.valid hlm.sub fun v hvv => by
            rw [single_E ho hv hn hm.valid hm.sub v hvv, single_E ho hv hn hlm.valid hlm.sub v hvv]; omega)
        have hd : q.deg + lm.deg = m.deg := by rw [← q2]; rfl
        refine ⟨q, ⟨⟨q1, quot_sub ho q1 hm.valid hlm.valid q2 hm.sub, ?_⟩, ?_⟩, q2⟩
        · rw [if_pos hn]; omega
        · rw [show q.deg = m.deg - lm.deg by omega]; exact h
      · rintro ⟨q, ⟨q1, q3⟩, q2⟩
        have hd : q.deg + lm.deg = m.deg := by rw [← q2]; rfl
        rw [show m.deg - lm.deg = q.deg by omega]; exact q3
    · constructor
      · intro h
        exfalso
        refine and_moldW (moldGr 1) ?_ ?_ (by decide +kernel) h
        · unfold subW
          exact Nat.mod_lt _ (by rw [W_eq]; positivity)
        · unfold subW
          rw [W_eq, Nat.mod_eq_of_lt (show lm.deg.toNat < 2 ^ 64 by omega), Nat.mod_eq_of_lt (by omega)]
          omega
      · rintro ⟨q, ⟨q1, q3⟩, q2⟩
        have hd : q.deg + lm.deg = m.deg := by rw [← q2]; rfl
        have := deg_nonneg q1.valid
        omega
  · rintro m1 y ⟨h1, h2⟩ h3 ⟨h4, h5⟩
    refine ⟨mul_valid ho h1.valid h4.valid, mul_sub ho h1.valid h4.valid h1.sub h4.sub, ?_⟩
    have := h3.cap
    refine lt_of_le_of_lt ?_ this
    show m1.deg + y.deg ≤ m1.deg + lm.deg
    omega

end gr

/-! ## lex -/

section lex
variable (ho : VarOrd vc) {vars : List Var} (hv : SortedVars vc vars)
include ho hv

omit hv in
theorem packLex_lt_W (hv : SortedVars vc vars) {m : Mono} (h : FitsLex vc vars m) : packLex vars m < W := by
  have hcap := h.cap' ho
  by_cases hn : 1 < vars.length
  · rw [packLex_many ho hv h hn]
    rw [if_neg (by omega)] at hcap
    have := num_lt _ _ hcap
    refine lt_of_lt_of_le this ?_
    rw [digs_length, ← pow_mul, W_eq]
    exact Nat.pow_le_pow_right (by norm_num) (Nat.div_mul_le_self _ _)
  · rw [if_pos (by omega)] at hcap
    match vars, hn, h, hcap with
    | [], _, h, _ => simp [packLex, W_eq]
    | _ :: _ :: _, hn, _, _ => simp at hn
    | [w], _, h, hcap =>
      rw [packLex_single ho h]
      have := hcap (E m.data w).toNat (by simp [digs])
      rw [W_eq]; omega

/-- half of the field capacity -/
def HalfLex (vc : Var → Var → Bool) (vars : List Var) (m : Mono) : Prop :=
  FitsLex vc vars m ∧ ∀ v, E m.data v < 2 ^ (64 / vars.length - 1)

theorem divCodecLex_many (hn : 1 < vars.length) (hl0 : 0 < 64 / vars.length) {lm : Mono} (hlm : HalfLex vc vars lm) :
    DivCodec vc (lexGt vc) (packLex vars) (unpackLex vars) (FitsLex vc vars) (moldLex vars.length) lm
      (HalfLex vc vars) (HalfLex vc vars) := by
  have C := codecLex ho hv
  refine { C with
    lmG := hlm
    hB := fun m h => h.1
    gB := fun m h => h.1
    div := divx_of_test ho C (fun m h => packLex_lt_W ho hv h) hlm.1 (fun m h => h.1) ?_
    clo := ?_ }
  · intro m hm
    have hmd := hm.cap' ho
    rw [if_neg (by omega)] at hmd
    unfold HalfLex at hlm ⊢
    set l := 64 / vars.length with hl
    have hl1 : l * vars.length ≤ 64 := Nat.div_mul_le_self _ _
    have hT := mold_test (l := l) hl0 (a := digs vars m.data) (b := digs vars lm.data)
      (by simp [digs_length]) (by rw [digs_length]; exact hl1) hmd (by
        intro d hd
        obtain ⟨v, _, rfl⟩ := List.mem_map.1 hd
        zify
        rw [Int.toNat_of_nonneg (E_nonneg hlm.1.valid.pos v)]
        exact (hlm.2 v).le)
    rw [digs_length, ← packLex_many ho hv hm hn, ← packLex_many ho hv hlm.1 hn] at hT
    unfold moldLex
    rw [← hl, hT]
    constructor
    · intro h
      have hz := (zip_iff vars (fun v => (E m.data v).toNat) (fun v => (E lm.data v).toNat) (2 ^ (l - 1))).1 (by
        obtain ⟨c, c1, c2, c3⟩ := h
        exact ⟨c, by rw [c1, List.length_map], c2, c3⟩)
      obtain ⟨q, q1, q2⟩ := exists_quot ho hm.valid hlm.1.valid
        (E_toNat_le hlm.1.valid hm.valid hlm.1.sub fun v hvv => (hz v hvv).1)
      have hqE : ∀ v, E q.data v < 2 ^ (l - 1) := by
        intro v
        by_cases h0 : E q.data v = 0
        · rw [h0]; positivity
        · obtain ⟨x, hx, rfl⟩ := exists_of_E h0
          have hxv := quot_sub ho q1 hm.valid hlm.1.valid q2 hm.sub x hx
          have h1 := (hz _ hxv).2
          have h2 := quot_E q2 x.1
          have h3 := E_nonneg hlm.1.valid.pos x.1
          have h4 := E_nonneg hm.valid.pos x.1
          zify at h1
          have h5 : (E m.data x.1).toNat - (E lm.data x.1).toNat = (E q.data x.1).toNat := by omega
          rw [h5, Int.toNat_of_nonneg (E_nonneg q1.pos _)] at h1
          exact h1
      refine ⟨q, ⟨⟨q1, quot_sub ho q1 hm.valid hlm.1.valid q2 hm.sub, ?_⟩, hqE⟩, q2⟩
      intro x hx
      have h1 := hqE x.1
      rw [E_mem ho q1.sorted hx] at h1
      rw [if_neg (by omega), ← hl]
      have : (2:Int) ^ (l - 1) ≤ 2 ^ l := pow_le_pow_right₀ (by norm_num) (by omega)
      omega
    · rintro ⟨q, ⟨q1, q3⟩, q2⟩
      refine ⟨digs vars q.data, by simp [digs_length], ?_, ?_⟩
      · intro d hdm
        obtain ⟨v, _, rfl⟩ := List.mem_map.1 hdm
        zify
        rw [Int.toNat_of_nonneg (E_nonneg q1.valid.pos v)]
        exact q3 v
      · rw [← q2, digs_mul vars q1.valid hlm.1.valid]
        unfold digs
        rw [List.zipWith_map, List.zipWith_self]
  · rintro m1 y ⟨h1, h2⟩ h3 ⟨h4, h5⟩
    have hvd := mul_valid ho h1.valid h4.valid
    refine ⟨hvd, mul_sub ho h1.valid h4.valid h1.sub h4.sub, ?_⟩
    intro x hx
    rw [if_neg (by omega), ← E_mem ho hvd.sorted hx, E_mul]
    have a := h2 x.1
    have b := h5 x.1
    have : (2:Int) ^ (64 / vars.length) = 2 * 2 ^ (64 / vars.length - 1) := by
      rw [← pow_succ', Nat.sub_add_cancel hl0]
    show E m1.data x.1 + E y.data x.1 < _
    omega

theorem divCodecLex_single {w : Var} (hw : vars = [w]) {lm : Mono} (hlm : FitsLex vc vars lm) :
    DivCodec vc (lexGt vc) (packLex vars) (unpackLex vars) (FitsLex vc vars) (moldLex 1) lm
      (FitsLex vc vars) (fun y => FitsLex vc vars y ∧ E y.data w ≤ E lm.data w) := by
  subst hw
  have C := codecLex ho hv
  have capE : ∀ m, FitsLex vc [w] m → 0 ≤ E m.data w ∧ E m.data w < 2 ^ 63 := by
    intro m hm
    have := hm.cap' ho (E m.data w).toNat (by simp [digs])
    rw [if_pos (by simp)] at this
    have h0 := E_nonneg hm.valid.pos w
    exact ⟨h0, by omega⟩
  refine { C with
    lmG := ⟨hlm, le_rfl⟩
    hB := fun m h => h
    gB := fun m h => h.1
    div := divx_of_test ho C (fun m h => packLex_lt_W ho hv h) hlm (fun m h => h) ?_
    clo := ?_ }
  · intro m hm
    obtain ⟨m0, hmc⟩ := capE m hm
    obtain ⟨lm0, hlc⟩ := capE lm hlm
    rw [packLex_single ho hm, packLex_single ho hlm]
    by_cases hle : E lm.data w ≤ E m.data w
    · have e : subW (E m.data w).toNat (E lm.data w).toNat = (E m.data w - E lm.data w).toNat := by
        unfold subW
        rw [W_eq, Nat.mod_eq_of_lt (show (E lm.data w).toNat < 2 ^ 64 by omega),
          show (E m.data w).toNat + (2 ^ 64 - (E lm.data w).toNat) = (E m.data w - E lm.data w).toNat + 2 ^ 64 by omega,
          Nat.add_mod_right, Nat.mod_eq_of_lt (by omega)]
      rw [e]
      have hz : (E m.data w - E lm.data w).toNat &&& moldLex 1 = 0 := by
        have : moldLex 1 = 2 ^ (64 - 1) := by decide +kernel
        rw [this, and_top (by norm_num) (by omega)]
        omega
      simp only [hz, true_iff]
      obtain ⟨q, q1, q2⟩ := exists_quot ho hm.valid hlm.valid
        (E_toNat_le hlm.valid hm.valid hlm.sub fun v hvv => by
          rw [List.mem_singleton] at hvv; subst hvv; omega)
      refine ⟨q, ⟨q1, quot_sub ho q1 hm.valid hlm.valid q2 hm.sub, ?_⟩, q2⟩
      intro x hx
      have hxw := quot_sub ho q1 hm.valid hlm.valid q2 hm.sub x hx
      rw [List.mem_singleton] at hxw
      rw [if_pos (by simp), ← E_mem ho q1.sorted hx, quot_E q2, hxw]
      omega
    · constructor
      · intro h
        exfalso
        refine and_moldW (moldLex 1) ?_ ?_ (by decide +kernel) h
        · unfold subW
          exact Nat.mod_lt _ (by rw [W_eq]; positivity)
        · unfold subW
          rw [W_eq, Nat.mod_eq_of_lt (show (E lm.data w).toNat < 2 ^ 64 by omega), Nat.mod_eq_of_lt (by omega)]
          omega
      · rintro ⟨q, q1, q2⟩
        have := quot_E q2 w
        have := (capE q q1).1
        omega
  · rintro m1 y h1 h3 ⟨h4, h5⟩
    have hvd := mul_valid ho h1.valid h4.valid
    refine ⟨hvd, mul_sub ho h1.valid h4.valid h1.sub h4.sub, ?_⟩
    intro x hx
    have hxw := mul_sub ho h1.valid h4.valid h1.sub h4.sub x hx
    rw [List.mem_singleton] at hxw
    rw [if_pos (by simp), ← E_mem ho hvd.sorted hx, E_mul, hxw]
    have := (capE _ h3).2
    rw [E_mul] at this
    show E m1.data w + E y.data w < _
    have : E m1.data w + E lm.data w < 2 ^ 63 := this
    omega

end lex

end CLPoly
