import Verif.Wang.LeadExact

/-! # The leading coefficients of an existing factorization are found -/

namespace CLPoly
namespace Mtshl
open Mono Mgcd Run Upoly Factor Lift Wang Charset MvPolynomial

/-! ## powers with own primes -/

theorem powers_cons {R : Type} [CommMonoid R] (l : R) (ls : List R) (k : ℕ) (ks : List ℕ) : powers (l :: ls) (k :: ks) = l ^ k * powers ls ks := by simp [powers]

theorem powers_hom {R S : Type} [CommMonoid R] [CommMonoid S] (φ : R →* S) : ∀ (ls : List R) (ks : List ℕ), φ (powers ls ks) = powers (ls.map φ) ks
  | [], _ => by simp [powers]
  | l :: ls, [] => by simp [powers]
  | l :: ls, k :: ks => by rw [List.map_cons, powers_cons, powers_cons, map_mul, map_pow, powers_hom φ ls ks]

theorem dvd_powers {l : ℤ} (hl : Prime l) : ∀ {es : List ℤ} {ks : List ℕ}, l ∣ powers es ks → l ∣ es.prod
  | [], _, h => by simpa [powers] using h
  | e :: es, [], h => by
    simp only [powers, List.zipWith_nil_right, List.prod_nil] at h
    exact absurd (isUnit_of_dvd_one h) hl.not_unit
  | e :: es, k :: ks, h => by
    rw [powers_cons] at h
    rw [List.prod_cons]
    rcases hl.dvd_or_dvd h with h | h
    · exact (hl.dvd_of_dvd_pow h).mul_right _
    · exact (dvd_powers hl h).mul_left _

theorem not_dvd_tail {D m l : ℤ} (hl : Prime l) {es : List ℤ} {ks : List ℕ} (hm : ∀ l : ℤ, Prime l → l ∣ m → l ∣ D) (h : ¬ l ∣ D * es.prod) : ¬ l ∣ m * powers es ks := fun hd => by
  rcases hl.dvd_or_dvd hd with hd | hd
  · exact h ((hm l hl hd).mul_right _)
  · exact h ((dvd_powers hl hd).mul_left _)

theorem pow_eq_pow {E l S S' : ℤ} (hE : E ≠ 0) (hl : l ∣ E) (hS : ¬ l ∣ S) : ∀ {k k' : ℕ}, k ≤ k' → E ^ k * S = E ^ k' * S' → k = k' ∧ S = S' := fun {k k'} hk h => by
  obtain ⟨d, rfl⟩ := Nat.exists_eq_add_of_le hk
  rw [pow_add, mul_assoc] at h
  have h1 := mul_left_cancel₀ (pow_ne_zero _ hE) h
  rcases Nat.eq_zero_or_pos d with rfl | hd
  · exact ⟨rfl, by simpa using h1⟩
  · exact absurd (h1 ▸ ((hl.trans (dvd_pow_self E hd.ne')).mul_right _)) hS

/-- the exponents of a product are determined by the own primes -/
theorem powers_unique {D m m' : ℤ} (hm : ∀ l : ℤ, Prime l → l ∣ m → l ∣ D) (hm' : ∀ l : ℤ, Prime l → l ∣ m' → l ∣ D) : ∀ {es : List ℤ} {ks ks' : List ℕ}, (∀ e ∈ es, e ≠ 0) → Own D es → ks.length = es.length → ks'.length = es.length →
    m * powers es ks = m' * powers es ks' → ks = ks'
  | [], [], [], _, _, _, _, _ => rfl
  | [], k :: ks, _, _, _, h, _, _ => by simp at h
  | [], [], k' :: ks', _, _, _, h, _ => by simp at h
  | e :: es, [], _, _, _, h, _, _ => by simp at h
  | e :: es, k :: ks, [], _, _, _, h, _ => by simp at h
  | e :: es, k :: ks, k' :: ks', h0, hO, h1, h2, h => by
    obtain ⟨⟨l, l1, l2, l3⟩, hO'⟩ := hO
    rw [powers_cons, powers_cons, mul_left_comm, mul_left_comm m'] at h
    have e0 := h0 e (by simp)
    have a1 := not_dvd_tail (ks := ks) l1 hm l3
    have a2 := not_dvd_tail (ks := ks') l1 hm' l3
    have : k = k' ∧ m * powers es ks = m' * powers es ks' := by
      rcases le_total k k' with hk | hk
      · exact pow_eq_pow e0 l2 a1 hk h
      · obtain ⟨b1, b2⟩ := pow_eq_pow e0 l2 a2 hk h.symm
        exact ⟨b1.symm, b2.symm⟩
    rw [this.1, powers_unique hm hm' (fun z hz => h0 z (by simp [hz])) hO' (by simpa using h1) (by simpa using h2) this.2]

/-- the divisors of a product of powers of irreducible polynomials -/
theorem dvd_powers_irr {γ : ℤ} : ∀ {ls : List (MvPolynomial Var ℤ)} {es : List ℕ} {P : MvPolynomial Var ℤ}, γ ≠ 0 → (∀ l ∈ ls, Irreducible l) → es.length = ls.length → P ∣ C γ * powers ls es →
    ∃ (g : ℤ) (ks : List ℕ), g ∣ γ ∧ ks.length = ls.length ∧ P = C g * powers ls ks
  | [], _, P, γ0, _, _, h => by
    simp only [powers, List.zipWith_nil_left, List.prod_nil, mul_one] at h
    have h0 : (C γ : MvPolynomial Var ℤ) ≠ 0 := fun e => γ0 (C_injective _ _ (by rw [e, C_0]))
    have hv := vars_of_dvd h h0
    rw [vars_C, Finset.subset_empty] at hv
    obtain ⟨g, hg⟩ : ∃ g, P = C g := ⟨_, vars_eq_empty_iff_eq_C.1 hv⟩
    refine ⟨g, [], ?_, rfl, by simp [powers, hg]⟩
    obtain ⟨q, hq⟩ := h
    have := congrArg (eval fun _ => (0 : ℤ)) hq
    rw [hg, map_mul, eval_C, eval_C] at this
    exact ⟨_, this⟩
  | l :: ls, [], _, _, _, h, _ => by simp at h
  | l :: ls, e :: es, P, γ0, hi, hlen, h => by
    have hl : Prime l := (hi l (by simp)).prime
    rw [powers_cons] at h
    have hlen' : es.length = ls.length := by simpa using hlen
    clear hlen
    induction e generalizing P with
    | zero =>
      rw [pow_zero, one_mul] at h
      obtain ⟨g, ks, a1, a2, a3⟩ := dvd_powers_irr γ0 (fun z hz => hi z (by simp [hz])) hlen' h
      exact ⟨g, 0 :: ks, a1, by simp [a2], by rw [powers_cons, pow_zero, one_mul, a3]⟩
    | succ e ih =>
      obtain ⟨Q, hQ⟩ := h
      by_cases hd : l ∣ P
      · obtain ⟨P', rfl⟩ := hd
        have h1 : C γ * (l ^ e * powers ls es) = P' * Q := by
          refine mul_left_cancel₀ hl.ne_zero ?_
          rw [← mul_assoc l P', ← hQ]; ring
        obtain ⟨g, ks, a1, a2, a3⟩ := ih (P := P') ⟨Q, h1⟩
        match ks, a2, a3 with
        | k :: ks, a2, a3 => exact ⟨g, (k + 1) :: ks, a1, by simpa using a2, by rw [a3, powers_cons, powers_cons]; ring⟩
      · have h1 : l ∣ P * Q := ⟨C γ * (l ^ e * powers ls es), by rw [← hQ]; ring⟩
        obtain ⟨Q', rfl⟩ := (hl.dvd_or_dvd h1).resolve_left hd
        refine ih (P := P) (Dvd.intro Q' (mul_left_cancel₀ hl.ne_zero ?_))
        rw [mul_left_comm l P, ← hQ]; ring

/-! ## termination of the integer loops -/

theorem stripOne_total {l : ℤ} (hl : Prime l) : ∀ (n : ℕ) {r q : ℤ}, 0 < q → l ∣ q → ¬ l ∣ r → q.natAbs + 2 ≤ n → ∃ q', stripOne n r q = some (some q')
  | 0, _, _, _, _, _, h => by omega
  | n + 1, r, q, h0, h1, h2, hn => by
    unfold stripOne
    by_cases hr : r = 1
    · exact ⟨q, by rw [if_pos hr]⟩
    rw [if_neg hr]
    dsimp only
    obtain ⟨g, hg⟩ : ∃ g : ℤ, g = Int.gcd r q := ⟨_, rfl⟩
    rw [← hg]
    have gq : g ∣ q := hg ▸ Int.gcd_dvd_right ..
    have gr : g ∣ r := hg ▸ Int.gcd_dvd_left ..
    have g0 : 0 < g := by
      rw [hg]
      exact_mod_cast Int.gcd_pos_of_ne_zero_right _ h0.ne'
    have e := Int.mul_tdiv_cancel' gq
    obtain ⟨s, hs⟩ : ∃ s, s = Int.tdiv q g := ⟨_, rfl⟩
    rw [← hs] at e ⊢
    have s0 : 0 < s := by
      rw [← e] at h0
      exact (mul_pos_iff_of_pos_left g0).1 h0
    have hlg : ¬ l ∣ g := fun h => h2 (h.trans gr)
    have hls : l ∣ s := by
      rw [← e] at h1
      exact (hl.dvd_or_dvd h1).resolve_left hlg
    have hs1 : s ≠ 1 := fun h => hl.not_unit (isUnit_of_dvd_one (h ▸ hls))
    rw [if_neg hs1]
    by_cases g1 : g = 1
    · match n, hn with
      | n + 1, _ => exact ⟨s, by unfold stripOne; rw [if_pos g1]⟩
    · refine stripOne_total hl n s0 hls hlg ?_
      have : s < q := by rw [← e]; nlinarith [show (2 : ℤ) ≤ g by omega]
      omega

theorem stripAll_total {l : ℤ} (hl : Prime l) {n : ℕ} : ∀ {d : List ℤ} {q : ℤ}, 0 < q → l ∣ q → (∀ r ∈ d, ¬ l ∣ r) → q.natAbs + 2 ≤ n → ∃ q', stripAll n d q = some (some q') ∧ q' ∣ q
  | [], q, _, _, _, _ => ⟨q, rfl, dvd_refl _⟩
  | r :: d, q, h0, h1, h2, hn => by
    obtain ⟨s, hs⟩ := stripOne_total hl n h0 h1 (h2 r (by simp)) hn
    obtain ⟨a1, a2, a3, a4⟩ := stripOne_spec _ h0 hs
    have hls : l ∣ s := ((a4 l hl).2 h1).resolve_right (h2 r (by simp))
    have hle := Int.le_of_dvd h0 a1
    obtain ⟨q', b1, b2⟩ := stripAll_total hl (d := d) a2 hls (fun r' hr => h2 r' (by simp [hr])) (n := n) (by omega)
    exact ⟨q', by unfold stripAll; rw [hs]; exact b1, b2.trans a1⟩

theorem nonDivisors_total {n : ℕ} : ∀ {es d : List ℤ}, (∀ e ∈ es, 0 < e ∧ e.natAbs + 2 ≤ n) → (∀ a e b, es = a ++ e :: b → ∃ l : ℤ, Prime l ∧ l ∣ e ∧ (∀ r ∈ d, ¬ l ∣ r) ∧ ∀ z ∈ a, ¬ l ∣ z) → nonDivisors n d es = some true
  | [], _, _, _ => rfl
  | e :: es, d, he, h => by
    obtain ⟨l, l1, l2, l3, _⟩ := h [] e es rfl
    obtain ⟨q, q1, q2⟩ := stripAll_total l1 (he e (by simp)).1 l2 l3 (he e (by simp)).2
    unfold nonDivisors
    rw [q1]
    show nonDivisors n (q :: d) es = some true
    refine nonDivisors_total (fun z hz => he z (by simp [hz])) fun a e' b hs => ?_
    obtain ⟨l, l1, l2, l3, l4⟩ := h (e :: a) e' b (by rw [hs]; rfl)
    refine ⟨l, l1, l2, fun r hr => ?_, fun z hz => l4 z (by simp [hz])⟩
    rcases List.mem_cons.1 hr with rfl | hr
    · exact fun hd => l4 e (by simp) (hd.trans q2)
    · exact l3 r hr

theorem valuation_total {E l S : ℤ} (hE : E ≠ 0) (hl : l ∣ E) (hS : ¬ l ∣ S) : ∀ (k n a : ℕ), k < n → valuation E n (E ^ k * S) a = some (a + k, S)
  | _, 0, _, h => by omega
  | 0, n + 1, a, _ => by
    unfold valuation
    rw [pow_zero, one_mul, if_neg fun e => hS (hl.trans (Int.dvd_of_tmod_eq_zero e))]
    rfl
  | k + 1, n + 1, a, h => by
    unfold valuation
    have e : E ^ (k + 1) * S = E * (E ^ k * S) := by ring
    rw [e, Int.mul_tmod_right, if_pos rfl, Int.mul_tdiv_cancel_left _ hE, valuation_total hE hl hS k n (a + 1) (by omega)]
    simp; omega

/-! ## the polynomials -/

section
variable {vc : Var → Var → Bool} (ho : VarOrd vc) {K : Finset Var} {B : ℕ} (hB : (B : ℤ) ≤ capLex K.card)

theorem val_one : val [((Mono.one, 1) : Mono × ℤ)] = 1 := by rw [val_cons, val_nil, add_zero, expo_one]; rfl

theorem degreeOf_pow_le' (w : Var) (l : MvPolynomial Var ℤ) (k : ℕ) : (l ^ k).degreeOf w ≤ k * l.degreeOf w := MvPolynomial.degreeOf_pow_le _ _ _

include ho hB in
theorem powFrom_wp {l : PV Mono ℤ} (hl : OKIn vc K l) : ∀ (k : ℕ) {acc : PV Mono ℤ}, OKIn vc K acc → (∀ w, (val acc).degreeOf w + k * (val l).degreeOf w < B) → Wp (fun _ => powFrom true vc l acc k) fun r => OKIn vc K r ∧ val r = val acc * val l ^ k
  | 0, _, h, _ => Wp.ret ⟨h, by simp⟩
  | k + 1, acc, h, hd => by
    unfold powFrom
    refine Wp.bind (f := fun _ a => powFrom true vc l a k) (mulN_wp ho hB h hl fun w => ?_) fun a ha => (powFrom_wp hl k ha.1 fun w => ?_).mono fun r hr => ⟨hr.1, ?_⟩
    · have := hd w
      rw [add_mul, one_mul] at this
      omega
    · have := hd w
      have h2 : (val a).degreeOf w ≤ (val acc).degreeOf w + (val l).degreeOf w := by rw [ha.2]; exact degreeOf_mul_le _ _ _
      rw [add_mul, one_mul] at this
      omega
    · rw [hr.2, ha.2]; ring

include ho hB in
theorem sigma_wp {l sg : PV Mono ℤ} (hl : OKIn vc K l) (hs : OKIn vc K sg) (k : ℕ) (hd : ∀ w, (val sg).degreeOf w + k * (val l).degreeOf w < B) :
    Wp (fun _ => if 0 < k then Run.bind (powFrom true vc l l (k - 1)) fun lp => mulN true vc sg lp else Run.ret sg) fun s => OKIn vc K s ∧ val s = val sg * val l ^ k := by
  refine Wp.ite (fun h => ?_) fun h => Wp.ret ⟨hs, ?_⟩
  · have hk : ∀ w, (val l).degreeOf w + (k - 1) * (val l).degreeOf w = k * (val l).degreeOf w := fun w => by
      obtain ⟨j, rfl⟩ := Nat.exists_eq_succ_of_ne_zero h.ne'
      simp; ring
    refine Wp.bind (f := fun _ lp => mulN true vc sg lp) (powFrom_wp ho hB hl (k - 1) hl fun w => ?_) fun lp hlp => (mulN_wp ho hB hs hlp.1 fun w => ?_).mono fun r hr => ⟨hr.1, ?_⟩
    · have := hd w; have := hk w; omega
    · have h1 := hd w
      have h2 := hk w
      have h3 : (val lp).degreeOf w ≤ (val l).degreeOf w + (k - 1) * (val l).degreeOf w := by
        rw [hlp.2]; exact (degreeOf_mul_le _ _ _).trans (Nat.add_le_add_left (degreeOf_pow_le' _ _ _) _)
      omega
    · rw [hr.2, hlp.2, ← pow_succ', Nat.sub_add_cancel h]
  · rw [Nat.eq_zero_of_not_pos h, pow_zero, mul_one]

/-- the degree of a product of powers, by its factors -/
noncomputable def powDeg (w : Var) (ls : List (MvPolynomial Var ℤ)) (ks : List ℕ) : ℕ := (List.zipWith (fun l k => k * l.degreeOf w) ls ks).sum

theorem degreeOf_pow_dom {w : Var} {l : MvPolynomial Var ℤ} (hl : l ≠ 0) : ∀ k : ℕ, (l ^ k).degreeOf w = k * l.degreeOf w
  | 0 => by simp
  | k + 1 => by rw [pow_succ, degreeOf_mul_dom (pow_ne_zero _ hl) hl, degreeOf_pow_dom hl k]; ring

theorem powDeg_eq {w : Var} : ∀ {ls : List (MvPolynomial Var ℤ)} {ks : List ℕ}, (∀ l ∈ ls, l ≠ 0) → powers ls ks ≠ 0 ∧ powDeg w ls ks = (powers ls ks).degreeOf w
  | [], _, _ => by simp [powers, powDeg]
  | l :: ls, [], _ => by simp [powers, powDeg]
  | l :: ls, k :: ks, h => by
    have hl := h l (by simp)
    obtain ⟨a, b⟩ := powDeg_eq (w := w) (ls := ls) (ks := ks) fun z hz => h z (by simp [hz])
    rw [powers_cons]
    refine ⟨mul_ne_zero (pow_ne_zero _ hl) a, ?_⟩
    rw [degreeOf_mul_dom (pow_ne_zero _ hl) a, degreeOf_pow_dom hl, ← b]
    simp [powDeg]

theorem Wp.lift {A : Type} {m : ℕ → Option A} {Q : A → Prop} {a : A} (ha : Q a) (N : ℕ) (h : ∀ n ≥ N, m n = some a) : Wp (fun n => Run.lift (m n)) Q :=
  ⟨a, ha, N, fun n hn s => by show Run.lift (m n) s = _; rw [h n hn]; rfl⟩

include ho hB in
theorem assignLc_wp {D m : ℤ} (hm : ∀ l : ℤ, Prime l → l ∣ m → l ∣ D) : ∀ {ls : List (PV Mono ℤ × ℤ)} {ks : List ℕ} {sg : PV Mono ℤ}, ks.length = ls.length → (∀ t ∈ ls, OKIn vc K t.1 ∧ t.2 ≠ 0) → Own D (ls.map Prod.snd) → OKIn vc K sg →
    (∀ w, (val sg).degreeOf w + powDeg w (ls.map fun t => val t.1) ks < B) →
    Wp (fun n => assignLc true vc n ls (m * powers (ls.map Prod.snd) ks) sg) fun r => r.1 = ks ∧ OKIn vc K r.2 ∧ val r.2 = val sg * powers (ls.map fun t => val t.1) ks
  | [], [], _, _, _, _, h, _ => Wp.ret ⟨rfl, h, by simp [powers]⟩
  | [], _ :: _, _, h, _, _, _, _ => by simp at h
  | _ :: _, [], _, h, _, _, _, _ => by simp at h
  | t :: ls, k :: ks, sg, hlen, hl, hO, h, hd => by
    obtain ⟨⟨l, l1, l2, l3⟩, hO'⟩ := hO
    have hS : ¬ l ∣ m * powers (ls.map Prod.snd) ks := not_dvd_tail l1 hm l3
    have e : m * powers ((t :: ls).map Prod.snd) (k :: ks) = t.2 ^ k * (m * powers (ls.map Prod.snd) ks) := by
      rw [List.map_cons, powers_cons]; ring
    rw [e]
    unfold assignLc
    have hd' : ∀ w, (val sg).degreeOf w + (k * (val t.1).degreeOf w + powDeg w (ls.map fun t => val t.1) ks) < B := fun w => by
      have := hd w
      simpa [powDeg] using this
    refine Wp.bind (m := fun n => Run.lift (valuation t.2 n (t.2 ^ k * (m * powers (ls.map Prod.snd) ks)) 0)) (Wp.lift (Q := fun kR => kR = (k, m * powers (ls.map Prod.snd) ks)) rfl (k + 1) fun n hn => ?_)
      (f := fun n kR => Run.bind (if 0 < kR.1 then Run.bind (powFrom true vc t.1 t.1 (kR.1 - 1)) fun lp => mulN true vc sg lp else Run.ret sg) fun sg' => Run.bind (assignLc true vc n ls kR.2 sg') fun r => Run.ret (kR.1 :: r.1, r.2)) fun kR hk => ?_
    · have := valuation_total (hl t (by simp)).2 l2 hS k n 0 (by omega)
      rw [this, zero_add]
    · subst hk
      refine Wp.bind (f := fun n sg' => Run.bind (assignLc true vc n ls (m * powers (ls.map Prod.snd) ks) sg') fun r => Run.ret (k :: r.1, r.2)) (sigma_wp ho hB (hl t (by simp)).1 h k fun w => ?_) fun sg' hs => ?_
      · have := hd' w; omega
      · refine Wp.bind (f := fun _ (r : List ℕ × PV Mono ℤ) => Run.ret (k :: r.1, r.2)) (assignLc_wp hm (by simpa using hlen) (fun x hx => hl x (by simp [hx])) hO' hs.1 fun w => ?_) fun r hr => ?_
        · have := hd' w
          have h2 : (val sg').degreeOf w ≤ (val sg).degreeOf w + k * (val t.1).degreeOf w := by
            rw [hs.2]; exact (degreeOf_mul_le _ _ _).trans (Nat.add_le_add_left (degreeOf_pow_le' _ _ _) _)
          omega
        · refine Wp.ret ⟨by simp [hr.1], hr.2.1, ?_⟩
          rw [hr.2.2, hs.2, List.map_cons, powers_cons, mul_assoc]

theorem assignAll_wp {ls : List (PV Mono ℤ × ℤ)} {A : Type} {Q : A → List ℕ → PV Mono ℤ → Prop} : ∀ {ws : List ℤ} {Ps : List A}, List.Forall₂ (fun w P => Wp (fun n => assignLc true vc n ls |w| [(Mono.one, 1)]) fun r => Q P r.1 r.2) ws Ps →
    Wp (fun n => assignAll true vc n ls ws) fun r => ∃ z : List (A × List ℕ × PV Mono ℤ), z.map Prod.fst = Ps ∧ r = (z.map fun z => z.2.1, z.map fun z => z.2.2) ∧ ∀ t ∈ z, Q t.1 t.2.1 t.2.2
  | [], [], _ => Wp.ret ⟨[], rfl, rfl, by simp⟩
  | w :: ws, P :: Ps, List.Forall₂.cons h hs => by
    unfold assignAll
    refine Wp.bind (f := fun n r => Run.bind (assignAll true vc n ls ws) fun rs => Run.ret (r.1 :: rs.1, r.2 :: rs.2)) h fun r hr => ?_
    refine Wp.bind (f := fun n rs => Run.ret (r.1 :: rs.1, r.2 :: rs.2)) (assignAll_wp hs) fun rs hrs => ?_
    obtain ⟨z, z1, z2, z3⟩ := hrs
    refine Wp.ret ⟨(P, r.1, r.2) :: z, by simp [z1], by simp [z2], fun t ht => ?_⟩
    rcases List.mem_cons.1 ht with rfl | ht
    exacts [hr, z3 t ht]

theorem foldl_mul {A : Type} (g : A → ℤ) : ∀ (l : List A) (a : ℤ), l.foldl (fun z x => z * g x) a = a * (l.map g).prod
  | [], a => by simp
  | x :: l, a => by rw [List.foldl_cons, foldl_mul g l, List.map_cons, List.prod_cons, mul_assoc]

theorem colSum_reverse {n : ℕ} : ∀ {kss : List (List ℕ)}, (∀ ks ∈ kss, ks.length = n) → colSum n (kss.map List.reverse) = (colSum n kss).reverse
  | [], _ => by simp [colSum]
  | ks :: kss, h => by
    have h1 := colSum_length fun k hk => h k (List.mem_cons_of_mem ks hk)
    have := colSum_reverse fun k hk => h k (List.mem_cons_of_mem ks hk)
    unfold colSum at this h1 ⊢
    rw [List.map_cons, List.foldr_cons, List.foldr_cons, this, List.reverse_zipWith (by rw [h1, h ks (by simp)])]

theorem abs_powers (ls : List ℤ) (ks : List ℕ) : |powers ls ks| = powers (ls.map fun z => |z|) ks := powers_hom (absHom : ℤ →*₀ ℤ).toMonoidHom ls ks

theorem eval_powers (a : Var → ℤ) (ls : List (MvPolynomial Var ℤ)) (ks : List ℕ) : eval a (powers ls ks) = powers (ls.map (eval a)) ks := powers_hom (eval a : MvPolynomial Var ℤ →+* ℤ).toMonoidHom ls ks

theorem prod_powers {A : Type} (g : A → ℤ) (k : A → List ℕ) (es : List ℤ) : ∀ l : List A, (l.map fun P => g P * powers es (k P)).prod = (l.map g).prod * ((l.map k).map (powers es)).prod
  | [] => by simp
  | x :: l => by
    simp only [List.map_cons, List.prod_cons]
    rw [prod_powers g k es l]; ring

include ho hB in
/-- the polynomials `σ_i` agree with the given divisors of `L`, up to constants -/
theorem splitLc_wp {L : PV Mono ℤ} (hL : OKIn vc K L) (hdeg : ∀ w, (val L).degreeOf w < B) {γ : ℤ} {l : List (PV Mono ℤ × ℕ)} (hfl : FacX False vc (lexGt vc) (val L) γ l) (hirr : ∀ x ∈ l, Irreducible (val x.1)) {us : List (UPoly ℤ)} {lcs : List (MvPolynomial Var ℤ)}
    {α : List (Var × ℤ)} (hα : ∀ w ∈ K, (α.lookup w).isSome = true) (hL0 : eval (ptVal α) (val L) ≠ 0) (hprod : lcs.prod = val L) {c : ℤ} (hus : List.Forall₂ (fun u P => ∃ d, eval (ptVal α) P = d * Upoly.lc u ∧ d ∣ c) us lcs)
    (hc : |c * (us.map Upoly.lc).prod| = |eval (ptVal α) (val L)|) (hne : us ≠ [])
    (hown : ∀ a e b, l = a ++ e :: b → ∃ q : ℤ, Prime q ∧ q ∣ eval (ptVal α) (val e.1) ∧ ¬ q ∣ c * γ ∧ ∀ z ∈ a ++ b, ¬ q ∣ eval (ptVal α) (val z.1)) :
    Wp (fun n => splitLc true vc n (fun _ => Run.ret (γ, l)) L us α c) fun o => ∃ sg, o = some sg ∧ List.Forall₂ (fun s P => OKIn vc K s ∧ (∀ w, (val s).degreeOf w < B) ∧ ∃ a b : ℤ, a ≠ 0 ∧ b ≠ 0 ∧ C a * val s = C b * P) sg lcs := by
  have L0 : val L ≠ 0 := fun e => hL0 (by rw [e, map_zero])
  have hin := factor_in hL L0 hfl
  have hγ0 : γ ≠ 0 := fun e => by
    rcases hfl.prod with h | ⟨_, h⟩
    · exact L0 (by rw [← h, e, C_0, zero_mul])
    · exact L0 (neg_eq_zero.1 (by rw [← h, e, C_0, zero_mul]))
  unfold splitLc
  refine Wp.bind (m := fun _ => Run.ret (γ, l)) (Wp.ret (Q := fun fl => fl = (γ, l)) rfl) fun fl hfe => ?_
  subst hfe
  dsimp only
  rw [zip_eq]
  obtain ⟨ls, hls⟩ : ∃ ls, ls = l.insertionSort fun a b => b.2 ≤ a.2 := ⟨_, rfl⟩
  rw [← hls]
  have hperm : ls.Perm l := hls ▸ List.perm_insertionSort _ _
  have hin' : ∀ x ∈ ls, OKIn vc K x.1 := fun x hx => hin x (hperm.subset hx)
  have hcv : ∀ x ∈ ls, constVal (assignAt vc α x.1) = eval (ptVal α) (val x.1) := fun x hx => assignAt_const ho (hin' x hx).1 fun w hw => hα w ((hin' x hx).2 hw)
  have hfp : C γ * facProd ls = val L ∨ C γ * facProd ls = -val L := by
    rw [facProd_perm hperm]
    exact hfl.prod.imp id fun h => h.2
  have hfe : |γ * (ls.map fun x => eval (ptVal α) (val x.1) ^ x.2).prod| = |eval (ptVal α) (val L)| := by
    have : γ * (ls.map fun x => eval (ptVal α) (val x.1) ^ x.2).prod = eval (ptVal α) (C γ * facProd ls) := by
      unfold facProd
      rw [map_mul, eval_C, map_list_prod, List.map_map]
      congr 3
      funext x
      simp
    rw [this]
    rcases hfp with e | e <;> rw [e]
    rw [map_neg, abs_neg]
  have hxL : ∀ x ∈ ls, eval (ptVal α) (val x.1) ≠ 0 := fun x hx e => hL0 <| by
    rw [← abs_eq_zero, ← hfe, abs_eq_zero]
    refine mul_eq_zero_of_right _ (List.prod_eq_zero (List.mem_map.2 ⟨x, hx, ?_⟩))
    rw [e]
    exact zero_pow (hfl.pos x (hperm.subset hx)).ne'
  have hown' : ∀ a e b, ls = a ++ e :: b → ∃ q : ℤ, Prime q ∧ q ∣ eval (ptVal α) (val e.1) ∧ ¬ q ∣ c * γ ∧ ∀ z ∈ a ++ b, ¬ q ∣ eval (ptVal α) (val z.1) := fun a e b hab => by
    have hm : e ∈ l := hperm.subset (hab ▸ by simp)
    obtain ⟨a', b', hab'⟩ := List.append_of_mem hm
    obtain ⟨q, q1, q2, q3, q4⟩ := hown a' e b' hab'
    have hp : (a ++ b).Perm (a' ++ b') := by
      have h1 : (e :: (a ++ b)).Perm (e :: (a' ++ b')) := List.perm_middle.symm.trans ((hab ▸ hab' ▸ hperm : (a ++ e :: b).Perm (a' ++ e :: b')).trans List.perm_middle)
      exact (List.perm_cons _).1 h1
    exact ⟨q, q1, q2, q3, fun z hz => q4 z (hp.subset hz)⟩
  have hes : ls.map (fun x => |constVal (assignAt vc α x.1)|) = ls.map fun x => |eval (ptVal α) (val x.1)| := List.map_congr_left fun x hx => by rw [hcv x hx]
  have hzip : (ls.map fun x => (x.1, |constVal (assignAt vc α x.1)|)) = ls.map fun x => (x.1, |eval (ptVal α) (val x.1)|) := List.map_congr_left fun x hx => by rw [hcv x hx]
  rw [hes, hzip]
  have hck : lcCheck vc α us c γ ls = true := by
    unfold lcCheck
    rw [decide_eq_true_iff, foldl_mul, foldl_mul, hc, ← hfe]
    congr 3
    exact List.map_congr_left fun x hx => by rw [hcv x hx]
  rw [hck]
  obtain ⟨es, hese⟩ : ∃ es, es = ls.map fun x => |eval (ptVal α) (val x.1)| := ⟨_, rfl⟩
  rw [← hese]
  have he1 : ∀ e ∈ es, 1 < e := fun e he => by
    rw [hese] at he
    obtain ⟨x, hx, rfl⟩ := List.mem_map.1 he
    obtain ⟨a, b, hab⟩ := List.append_of_mem hx
    obtain ⟨q, q1, q2, _, _⟩ := hown' a x b hab
    have h0 := abs_pos.2 (hxL x hx)
    have h1 : |eval (ptVal α) (val x.1)| ≠ 1 := fun e => q1.not_unit (isUnit_of_dvd_one (e ▸ (dvd_abs _ _).2 q2))
    omega
  have hany : (es.any fun e => decide (e ≤ 1)) = false := by
    rw [Bool.eq_false_iff]
    intro h
    obtain ⟨e, he, h⟩ := List.any_eq_true.1 h
    have := he1 e he
    have := of_decide_eq_true h
    omega
  rw [hany]
  simp only [Bool.true_eq_false, if_false, Bool.false_eq_true]
  have hnd : ∀ n, (es.map fun e => e.natAbs).sum + 2 ≤ n → nonDivisors n [|c * γ|] es = some true := fun n hn => by
    refine nonDivisors_total (fun e he => ⟨by have := he1 e he; omega, ?_⟩) fun a e b hab => ?_
    · have := List.single_le_sum (l := es.map fun e => e.natAbs) (by simp) _ (List.mem_map_of_mem (f := fun e : ℤ => e.natAbs) he)
      omega
    · rw [hese] at hab
      obtain ⟨a', l2, h1, h2, h3⟩ := List.map_eq_append_iff.1 hab
      obtain ⟨e', b', h4, h5, h6⟩ := List.map_eq_cons_iff.1 h3
      subst h4
      obtain ⟨q, q1, q2, q3, q4⟩ := hown' a' e' b' h1
      refine ⟨q, q1, by rw [← h5, dvd_abs]; exact q2, fun r hr => by rw [List.mem_singleton.1 hr, dvd_abs]; exact q3, fun z hz => ?_⟩
      rw [← h2] at hz
      obtain ⟨y, hy, rfl⟩ := List.mem_map.1 hz
      rw [dvd_abs]
      exact q4 y (by simp [hy])
  have hOwn : Own |c * γ| es.reverse := by
    have := nonDivisors_spec (D := |c * γ|) (d := [|c * γ|]) (acc := []) he1 (fun q _ => by simp) trivial (hnd _ le_rfl)
    rwa [List.append_nil] at this
  refine Wp.bind (m := fun n => Run.lift (nonDivisors n [|c * γ|] es)) (Wp.lift (Q := fun b => b = true) rfl _ hnd)
    (f := fun n b => if b = false then Run.ret none else Run.bind (assignAll true vc n ((ls.map fun x => (x.1, |eval (ptVal α) (val x.1)|)).reverse) (us.map fun u => Upoly.lc u * c)) fun r =>
        if ((List.range ls.length).all fun j => decide ((r.1.map fun ks => ks.reverse.getD j 0).sum = (ls.map Prod.snd).getD j 0)) = false then Run.ret none
        else
          match r.2 with
          | [] => Run.fail
          | s :: ss => Run.bind (mulN true vc s (mkConst γ)) fun s' => Run.ret (some (s' :: ss))) fun b hb => ?_
  subst hb
  simp only [Bool.true_eq_false, if_false]
  obtain ⟨lsR, hlsR⟩ : ∃ lsR, lsR = (ls.map fun x => (x.1, |eval (ptVal α) (val x.1)|)).reverse := ⟨_, rfl⟩
  rw [← hlsR]
  have hRs : lsR.map Prod.snd = es.reverse := by rw [hlsR, hese, List.map_reverse, List.map_map]; rfl
  have hRv : lsR.map (fun t => val t.1) = (ls.map fun x => val x.1).reverse := by rw [hlsR, List.map_reverse, List.map_map]; rfl
  have hRlen : lsR.length = ls.length := by rw [hlsR, List.length_reverse, List.length_map]
  have hRe : (lsR.map fun t => val t.1).map (fun P => |eval (ptVal α) P|) = es.reverse := by rw [hRv, hese, List.map_reverse, List.map_map]; rfl
  obtain ⟨V, hV⟩ : ∃ V, V = lsR.map fun t => val t.1 := ⟨_, rfl⟩
  have hVlen : V.length = ls.length := by rw [hV, List.length_map, hRlen]
  have hVirr : ∀ v ∈ V, Irreducible v := fun v hv => by
    rw [hV, hRv] at hv
    obtain ⟨x, hx, rfl⟩ := List.mem_map.1 (List.mem_reverse.1 hv)
    exact hirr x (hperm.subset hx)
  have hV0 : ∀ v ∈ V, v ≠ 0 := fun v hv => (hVirr v hv).ne_zero
  have hfpV : facProd ls = powers V (ls.map Prod.snd).reverse := by rw [hV, hRv, powers_reverse (by simp), powers_map]
  have hdv : ∀ P : MvPolynomial Var ℤ, ∃ z : ℤ × List ℕ, P ∣ val L → z.1 ∣ γ ∧ z.2.length = V.length ∧ P = C z.1 * powers V z.2 := fun P => by
    by_cases h : P ∣ val L
    · have h' : P ∣ C γ * powers V (ls.map Prod.snd).reverse := by
        rw [← hfpV]
        rcases hfp with e | e <;> rw [e]
        · exact h
        · exact (dvd_neg).2 h
      obtain ⟨g, ks, a1, a2, a3⟩ := dvd_powers_irr hγ0 hVirr (by rw [List.length_reverse, List.length_map, hVlen]) h'
      exact ⟨(g, ks), fun _ => ⟨a1, a2, a3⟩⟩
    · exact ⟨(0, []), fun h' => absurd h' h⟩
  choose F hF using hdv
  have hPL : ∀ P ∈ lcs, P ∣ val L := fun P hP => hprod ▸ List.dvd_prod hP
  have hPdeg : ∀ P ∈ lcs, ∀ w, powDeg w V (F P).2 < B := fun P hP w => by
    obtain ⟨a1, a2, a3⟩ := hF P (hPL P hP)
    obtain ⟨Q, hQ⟩ := hPL P hP
    have P0 : P ≠ 0 := fun e => L0 (by rw [hQ, e, zero_mul])
    have Q0 : Q ≠ 0 := fun e => L0 (by rw [hQ, e, mul_zero])
    obtain ⟨b1, b2⟩ := powDeg_eq (w := w) (ks := (F P).2) hV0
    have h1 := hdeg w
    rw [hQ, degreeOf_mul_dom P0 Q0, a3, degreeOf_mul_dom (fun e => P0 (by rw [a3, e, zero_mul])) b1, degreeOf_C] at h1
    omega
  have hall : List.Forall₂ (fun w P => Wp (fun n => assignLc true vc n lsR |w| [(Mono.one, 1)]) fun r => r.1 = (F P).2 ∧ OKIn vc K r.2 ∧ val r.2 = powers V (F P).2) (us.map fun u => Upoly.lc u * c) lcs := by
    rw [List.forall₂_map_left_iff]
    refine List.forall₂_iff_zip.2 ⟨hus.length_eq, fun {u P} hz => ?_⟩
    obtain ⟨d, hd1, d', hd2⟩ := (List.forall₂_iff_zip.1 hus).2 hz
    have hP := (List.of_mem_zip hz).2
    obtain ⟨a1, a2, a3⟩ := hF P (hPL P hP)
    have hw : |Upoly.lc u * c| = |d' * (F P).1| * powers (lsR.map Prod.snd) (F P).2 := by
      have h1 : Upoly.lc u * c = d' * eval (ptVal α) P := by rw [hd1, hd2]; ring
      have h2 : eval (ptVal α) P = (F P).1 * powers (V.map (eval (ptVal α))) (F P).2 := by
        conv_lhs => rw [a3]
        rw [map_mul, eval_C, eval_powers]
      rw [h1, h2, ← mul_assoc, abs_mul, abs_powers, hRs, ← hRe, ← hV, List.map_map]
      rfl
    rw [hw]
    refine (assignLc_wp ho hB (D := |c * γ|) (fun q hq h => ?_) (by rw [a2, hV, List.length_map]) (fun t ht => ?_) (by rw [hRs]; exact hOwn) one_in fun w => ?_).mono fun r hr => ⟨hr.1, hr.2.1, by rw [hr.2.2, val_one, one_mul, hV]⟩
    · rw [dvd_abs] at h ⊢
      rcases hq.dvd_or_dvd h with h | h
      · exact (h.trans (Dvd.intro_left d hd2.symm)).mul_right _
      · exact (h.trans a1).mul_left _
    · rw [hlsR] at ht
      obtain ⟨x, hx, rfl⟩ := List.mem_map.1 (List.mem_reverse.1 ht)
      exact ⟨hin' x hx, abs_ne_zero.2 (hxL x hx)⟩
    · rw [val_one, ← C_1, degreeOf_C, zero_add, ← hV]
      exact hPdeg P hP w
  refine Wp.bind (assignAll_wp (Q := fun P ks s => ks = (F P).2 ∧ OKIn vc K s ∧ val s = powers V (F P).2) hall) (f := fun n r => if ((List.range ls.length).all fun j => decide ((r.1.map fun ks => ks.reverse.getD j 0).sum = (ls.map Prod.snd).getD j 0)) = false then Run.ret none
        else
          match r.2 with
          | [] => Run.fail
          | s :: ss => Run.bind (mulN true vc s (mkConst γ)) fun s' => Run.ret (some (s' :: ss))) fun r hr => ?_
  obtain ⟨z, z1, rfl, z3⟩ := hr
  have hk : (z.map fun z => z.2.1) = lcs.map fun P => (F P).2 := by
    rw [← z1, List.map_map]
    exact List.map_congr_left fun t ht => (z3 t ht).1
  have hklen : ∀ ks ∈ lcs.map (fun P => (F P).2), ks.length = V.length := fun ks hks => by
    obtain ⟨P, hP, rfl⟩ := List.mem_map.1 hks
    exact (hF P (hPL P hP)).2.1
  have hcol : colSum V.length (lcs.map fun P => (F P).2) = (ls.map Prod.snd).reverse := by
    refine powers_unique (D := |c * γ|) (m := |(lcs.map fun P => (F P).1).prod|) (m' := |γ|) (es := es.reverse) (fun q hq h => ?_) (fun q hq h => ?_) (fun e he => ?_) hOwn (by rw [colSum_length hklen, hVlen, List.length_reverse, hese, List.length_map])
      (by rw [List.length_reverse, List.length_reverse, hese, List.length_map, List.length_map]) ?_
    · rw [dvd_abs] at h ⊢
      obtain ⟨y, hy, h⟩ := (hq.dvd_prod_iff).1 h
      obtain ⟨P, hP, rfl⟩ := List.mem_map.1 hy
      exact (h.trans (hF P (hPL P hP)).1).mul_left _
    · rw [dvd_abs] at h ⊢
      exact h.mul_left _
    · have := he1 e (List.mem_reverse.1 he)
      omega
    · have h1 : eval (ptVal α) (val L) = (lcs.map fun P => (F P).1).prod * powers (V.map (eval (ptVal α))) (colSum V.length (lcs.map fun P => (F P).2)) := by
        have h2 := prod_powers (fun P => (F P).1) (fun P => (F P).2) (V.map (eval (ptVal α))) lcs
        have h3 := powers_colSum (ls := V.map (eval (ptVal α))) (kss := lcs.map fun P => (F P).2) (by rwa [List.length_map])
        rw [List.length_map] at h3
        rw [h3, ← h2, ← hprod, map_list_prod]
        refine congrArg List.prod (List.map_congr_left fun P hP => ?_)
        conv_lhs => rw [(hF P (hPL P hP)).2.2]
        rw [map_mul, eval_C, eval_powers]
      have h4 : |eval (ptVal α) (val L)| = |γ * powers (V.map (eval (ptVal α))) (ls.map Prod.snd).reverse| := by
        have : eval (ptVal α) (C γ * facProd ls) = γ * powers (V.map (eval (ptVal α))) (ls.map Prod.snd).reverse := by rw [map_mul, eval_C, hfpV, eval_powers]
        rw [← this]
        rcases hfp with e | e <;> rw [e]
        rw [map_neg, abs_neg]
      rw [h1, abs_mul, abs_mul, abs_powers, abs_powers, List.map_map] at h4
      rw [← hRe, ← hV]
      exact h4
  have htest : ((List.range ls.length).all fun j => decide (((z.map fun z => z.2.1).map fun ks => ks.reverse.getD j 0).sum = (ls.map Prod.snd).getD j 0)) = true := by
    refine List.all_eq_true.2 fun j hj => decide_eq_true ?_
    have hj' : j < V.length := by rw [hVlen]; exact List.mem_range.1 hj
    have h1 := colSum_getD hj' (kss := (lcs.map fun P => (F P).2).map List.reverse) fun ks hks => by
      obtain ⟨y, hy, rfl⟩ := List.mem_map.1 hks
      rw [List.length_reverse]
      exact hklen y hy
    rw [colSum_reverse hklen, hcol, List.reverse_reverse, List.map_map] at h1
    rw [hk, h1]
    rfl
  dsimp only
  rw [htest]
  simp only [Bool.true_eq_false, if_false]
  have hrel : List.Forall₂ (fun s P => OKIn vc K s ∧ (∀ w, (val s).degreeOf w < B) ∧ ∃ a b : ℤ, a ≠ 0 ∧ b ≠ 0 ∧ C a * val s = C b * P) (z.map fun z => z.2.2) lcs := by
    rw [← z1, List.forall₂_map_left_iff, List.forall₂_map_right_iff, List.forall₂_same]
    intro t ht
    have hP : t.1 ∈ lcs := z1 ▸ List.mem_map_of_mem ht
    obtain ⟨a1, a2, a3⟩ := z3 t ht
    obtain ⟨b1, b2, b3⟩ := hF t.1 (hPL _ hP)
    refine ⟨a2, fun w => ?_, (F t.1).1, 1, fun e => hγ0 (by rw [e] at b1; exact zero_dvd_iff.1 b1), one_ne_zero, ?_⟩
    · rw [a3, ← (powDeg_eq hV0).2]; exact hPdeg _ hP w
    · conv_rhs => rw [b3]
      rw [C_1, one_mul, a3]
  have hlcs : lcs ≠ [] := fun e => hne (List.length_eq_zero_iff.1 (by rw [hus.length_eq, e]; rfl))
  obtain ⟨r2, hr2⟩ : ∃ r2, r2 = z.map fun z => z.2.2 := ⟨_, rfl⟩
  rw [← hr2] at hrel ⊢
  obtain ⟨Ps, hPs⟩ : ∃ Ps, Ps = lcs := ⟨_, rfl⟩
  rw [← hPs] at hrel hlcs ⊢
  match r2, Ps, hrel with
  | [], [], _ => exact absurd rfl hlcs
  | s :: ss, P :: Ps, List.Forall₂.cons hh hhs =>
    obtain ⟨m1, m2⟩ := mkConst_in (vc := vc) (K := K) γ
    dsimp only
    refine Wp.bind (f := fun _ s' => Run.ret (some (s' :: ss))) (mulN_wp ho hB hh.1 m1 fun w => by rw [m2, degreeOf_C]; exact hh.2.1 w) fun s' hs' => Wp.ret ⟨_, rfl, List.Forall₂.cons ⟨hs'.1, fun w => ?_, ?_⟩ hhs⟩
    · rw [hs'.2, m2]
      refine lt_of_le_of_lt (degreeOf_mul_le _ _ _) ?_
      rw [degreeOf_C]; exact hh.2.1 w
    · obtain ⟨a, b, a0, b0, e⟩ := hh.2.2
      refine ⟨a, b * γ, a0, mul_ne_zero b0 hγ0, ?_⟩
      rw [hs'.2, m2, ← mul_assoc, e, C_mul]; ring

end

end Mtshl
end CLPoly
