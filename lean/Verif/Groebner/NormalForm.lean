import Verif.Groebner.Rank

/-! # The normal form loop over a field -/

namespace CLPoly.GB
open CLPoly Mono MvPolynomial

variable {vc : Var → Var → Bool} {mc : Mono → Mono → Bool} {K : Type*} [Field K] [DecidableEq K]
variable {L : Type*} [LinearOrder L] {r : (Var →₀ ℕ) → L} {V : Finset Var}

/-- a polynomial with its leading exponent -/
noncomputable def toIt (p : PV Mono K) : It Var K := ⟨val p, expo (lm p)⟩

/-- the basis as items -/
noncomputable def items (G : List (PV Mono K)) : Set (It Var K) := {b | ∃ g ∈ G, b = toIt g}

/-- canonical, with all variables in `V` -/
structure OKin (vc : Var → Var → Bool) (mc : Mono → Mono → Bool) (V : Finset Var) (p : PV Mono K) : Prop where
  ok : PolyOK vc mc p
  keys : KeysIn (ValidIn vc V) p

theorem OKin.nil : OKin vc mc V ([] : PV Mono K) := ⟨PolyOK.nil, KeysIn.nil⟩

/-- scaling and shifting a canonical polynomial -/
theorem mapTerms_ok (M : MonoOrd vc mc) {p : PV Mono K} (hp : OKin vc mc V p) {q : Mono} (hq : ValidIn vc V q) {c : K} (hc : c ≠ 0) (f : K → K)
    (hf : ∀ x, f x = x * c) : OKin vc mc V (mapTerms vc p q f) ∧ val (mapTerms vc p q f) = monomial (expo q) c * val p := by
  have hk : KeysIn (ValidIn vc V) (mapTerms vc p q f) := by
    intro x hx
    obtain ⟨t, ht, rfl⟩ := List.mem_map.1 hx
    exact mul_validIn M.vo (hp.keys t ht) hq
  refine ⟨⟨⟨fun t ht => (hk t ht).1, ?_, ?_⟩, hk⟩, ?_⟩
  · unfold mapTerms
    rw [List.pairwise_map]
    refine hp.ok.canon.1.imp_of_mem fun {a b} ha hb h => ?_
    exact M.mono _ _ _ (hp.ok.monos a ha) (hp.ok.monos b hb) hq.1 h
  · intro x hx
    obtain ⟨t, ht, rfl⟩ := List.mem_map.1 hx
    show f t.2 ≠ 0
    rw [hf]
    exact mul_ne_zero (hp.ok.canon.2 t ht) hc
  · unfold val mapTerms
    rw [List.map_map, ← List.sum_map_mul_left]
    congr 1
    refine List.map_congr_left fun t ht => ?_
    show monomial (expo (mul vc t.1 q)) (f t.2) = _
    rw [expo_mul M.vo (hp.ok.monos t ht) hq.1, monomial_mul, hf, add_comm, mul_comm c]

theorem OKin.sub (M : MonoOrd vc mc) {p q : PV Mono K} (hp : OKin vc mc V p) (hq : OKin vc mc V q) : OKin vc mc V (pvSub mc p q) :=
  ⟨hp.ok.sub M hq.ok, pvSub_keysIn hp.keys hq.keys⟩

theorem OKin.tail {t : Mono × K} {p : PV Mono K} (h : OKin vc mc V (t :: p)) : OKin vc mc V p :=
  ⟨h.ok.tail, (KeysIn.cons.1 h.keys).2⟩

theorem lm_cons (t : Mono × K) (p : PV Mono K) : lm (t :: p) = t.1 := rfl
theorem lc_cons (t : Mono × K) (p : PV Mono K) : lc (t :: p) = t.2 := rfl

/-- all terms of `p` are below the monomial `m` -/
def Below (mc : Mono → Mono → Bool) (m : Mono) (p : PV Mono K) : Prop := ∀ t ∈ p, mc m t.1 = true

theorem below_tail {t : Mono × K} {p : PV Mono K} (h : PolyOK vc mc (t :: p)) : Below mc t.1 p :=
  fun x hx => (List.pairwise_cons.1 h.canon.1).1 x hx

theorem pvSub_head (m : Mono) (a b : K) (p q : PV Mono K) (M : MonoOrd vc mc) (hm : Valid vc m) (h : a - b = 0) :
    pvSub mc ((m, a) :: p) ((m, b) :: q) = pvSub mc p q := by
  rw [pvSub, if_neg (by rw [M.lawful.irrefl m hm]; simp), if_pos rfl, if_neg (by rw [h]; simp)]

theorem pvSub_mem {p q : PV Mono K} {x : Mono × K} (hx : x ∈ pvSub mc p q) : (∃ t ∈ p, t.1 = x.1) ∨ ∃ t ∈ q, t.1 = x.1 := by
  have := pvSub_keysIn (comp := mc) (S := fun k => (∃ t ∈ p, t.1 = k) ∨ ∃ t ∈ q, t.1 = k) (v1 := p) (v2 := q)
    (fun t ht => .inl ⟨t, ht, rfl⟩) (fun t ht => .inr ⟨t, ht, rfl⟩)
  exact this x hx

/-- the leading term cancels -/
theorem cancel_spec (M : MonoOrd vc mc) {t u : Mono × K} {h g : PV Mono K} (hh : OKin vc mc V (t :: h)) (hg : OKin vc mc V (u :: g))
    {q : Mono} (hq : divExact vc t.1 u.1 = some q) :
    ValidIn vc V q ∧ expo t.1 = expo q + expo u.1 ∧
    OKin vc mc V (cancel vc mc (· / ·) (t :: h) (u :: g) q) ∧ Below mc t.1 (cancel vc mc (· / ·) (t :: h) (u :: g) q) ∧
    val (cancel vc mc (· / ·) (t :: h) (u :: g) q) = val (t :: h) - monomial (expo q) (t.2 / u.2) * val (u :: g) := by
  have ht := hh.keys t (by simp)
  have hu := hg.keys u (by simp)
  obtain ⟨vq, eq⟩ := (divExact_iff M.vo ht hu).1 hq
  have t0 : t.2 ≠ 0 := hh.ok.canon.2 t (by simp)
  have u0 : u.2 ≠ 0 := hg.ok.canon.2 u (by simp)
  obtain ⟨ok1, v1⟩ := mapTerms_ok M hg vq (div_ne_zero t0 u0) (fun x => x * (t.2 / u.2)) (fun _ => rfl)
  have ecomm : mul vc u.1 q = t.1 := by rw [mul_comm' M.vo hu.1 vq.1]; exact eq
  have ex : expo t.1 = expo q + expo u.1 := by rw [← eq, expo_mul M.vo vq.1 hu.1]
  refine ⟨vq, ex, hh.sub M ok1, ?_, ?_⟩
  · intro x hx
    unfold cancel mapTerms at hx
    rw [List.map_cons, ecomm] at hx
    rw [show t :: h = (t.1, t.2) :: h from rfl, lc_cons, lc_cons, pvSub_head t.1 t.2 _ _ _ M ht.1 (by show t.2 - u.2 * (t.2 / u.2) = 0; rw [mul_comm, div_mul_cancel₀ _ u0, sub_self])] at hx
    rcases pvSub_mem hx with ⟨y, hy, e⟩ | ⟨y, hy, e⟩
    · rw [← e]; exact below_tail hh.ok y hy
    · obtain ⟨z, hz, rfl⟩ := List.mem_map.1 hy
      rw [← e, ← ecomm]
      exact M.mono _ _ _ hu.1 (hg.ok.monos z (by simp [hz])) vq.1 (below_tail hg.ok z hz)
  · unfold cancel
    rw [val_pvSub]
    congr 1

/-- what `findDiv` finds -/
theorem findDiv_spec {m : Mono} : ∀ {G : List (PV Mono K)} (k : Nat), (∀ g ∈ G, g ≠ []) →
    (findDiv vc m k G = .ok none ∧ ∀ g ∈ G, divExact vc m (lm g) = none) ∨
    ∃ i g q, findDiv vc m k G = .ok (some (i, g, q)) ∧ g ∈ G ∧ divExact vc m (lm g) = some q
  | [], k, _ => .inl ⟨rfl, by simp⟩
  | g :: G, k, h => by
    have h0 : g ≠ [] := h g (by simp)
    rcases hd : divExact vc m (lm g) with _ | q
    · rcases findDiv_spec (m := m) (G := G) (k + 1) (fun x hx => h x (by simp [hx])) with ⟨e, hn⟩ | ⟨i, g', q, e, hm, hq⟩
      · left
        refine ⟨by rw [findDiv, if_neg h0, hd]; exact e, ?_⟩
        intro x hx
        rcases List.mem_cons.1 hx with rfl | hx
        · exact hd
        · exact hn x hx
      · right
        exact ⟨i, g', q, by rw [findDiv, if_neg h0, hd]; exact e, by simp [hm], hq⟩
    · right
      exact ⟨k, g, q, by rw [findDiv, if_neg h0, hd], by simp, hd⟩

/-- the outcome of the reduction loop from `h`: for all large fuel it returns `out`. -/
structure NF (vc : Var → Var → Bool) (mc : Mono → Mono → Bool) (r : (Var →₀ ℕ) → L) (V : Finset Var) (G : List (PV Mono K)) (h out : PV Mono K) : Prop where
  run : ∃ N, ∀ n ≥ N, ∀ acc, nfLoop vc mc (· / ·) G n h acc = some (.ok (acc ++ out))
  ok : OKin vc mc V out
  lead : ∀ m, Valid vc m → Below mc m h → Below mc m out
  reduced : ∀ x ∈ out, ∀ g ∈ G, divExact vc x.1 (lm g) = none
  span : ∀ t, (∀ x ∈ h, r (expo x.1) < t) → val h - val out ∈ below r V (items G) t

theorem nf_exists (M : MonoOrd vc mc) (hr : ERank r) (hrm : ∀ a b, Valid vc a → Valid vc b → (mc a b = true ↔ r (expo b) < r (expo a)))
    {G : List (PV Mono K)} (hG : ∀ g ∈ G, OKin vc mc V g ∧ g ≠ []) (h : PV Mono K) (hh : OKin vc mc V h) : ∃ out, NF vc mc r V G h out := by
  have hnil : ∃ out, NF vc mc r V G ([] : PV Mono K) out := by
    refine ⟨[], ⟨1, ?_⟩, OKin.nil, (by intro m _ _ t ht; cases ht), (by simp), ?_⟩
    · intro n hn acc
      obtain ⟨k, rfl⟩ : ∃ k, n = k + 1 := ⟨n - 1, by omega⟩
      rw [nfLoop, List.append_nil]
    · intro t _; rw [sub_self]; exact Submodule.zero_mem _
  have main : ∀ (m : {m // ValidIn vc V m}) (c : K) (h : PV Mono K), OKin vc mc V ((m.1, c) :: h) → ∃ out, NF vc mc r V G ((m.1, c) :: h) out := by
    intro m
    induction m using (M.wf V).induction with
    | _ m ih =>
    intro c h hh
    have sub : ∀ h2 : PV Mono K, OKin vc mc V h2 → Below mc m.1 h2 → ∃ out, NF vc mc r V G h2 out := by
      intro h2 ok2 b2
      rcases h2 with _ | ⟨t, h2⟩
      · exact hnil
      · exact ih ⟨t.1, ok2.keys t (by simp)⟩ (b2 t (by simp)) t.2 h2 ok2
    rcases findDiv_spec (vc := vc) (m := m.1) (G := G) 0 (fun g hg => (hG g hg).2) with ⟨e, hn⟩ | ⟨i, g, q, e, hg, hq⟩
    · obtain ⟨out, ⟨N, hN⟩, ok, lead, red, sp⟩ := sub h hh.tail (below_tail hh.ok)
      have b := lead m.1 m.2.1 (below_tail hh.ok)
      refine ⟨(m.1, c) :: out, ⟨N + 1, ?_⟩, ⟨⟨?_, ?_, ?_⟩, ?_⟩, ?_, ?_, ?_⟩
      · intro n hn acc
        obtain ⟨k, rfl⟩ : ∃ k, n = k + 1 := ⟨n - 1, by omega⟩
        rw [nfLoop]
        simp only [e]
        rw [hN k (by omega), List.append_assoc]; rfl
      · intro t ht
        rcases List.mem_cons.1 ht with rfl | ht
        · exact m.2.1
        · exact ok.ok.monos t ht
      · exact List.pairwise_cons.2 ⟨b, ok.ok.canon.1⟩
      · intro x hx
        rcases List.mem_cons.1 hx with rfl | hx
        · exact hh.ok.canon.2 (m.1, c) (by simp)
        · exact ok.ok.canon.2 x hx
      · exact KeysIn.cons.2 ⟨m.2, ok.keys⟩
      · intro m' vm' hm' x hx
        rcases List.mem_cons.1 hx with rfl | hx
        · exact hm' (m.1, c) (by simp)
        · exact lead m' vm' (fun y hy => hm' y (by simp [hy])) x hx
      · intro x hx
        rcases List.mem_cons.1 hx with rfl | hx
        · exact hn
        · exact red x hx
      · intro t ht
        have := sp t fun x hx => ht x (by simp [hx])
        rw [val_cons, val_cons, add_sub_add_left_eq_sub]
        exact this
    · obtain ⟨u, g', rfl⟩ : ∃ u g', g = u :: g' := by
        cases g with
        | nil => exact absurd rfl (hG _ hg).2
        | cons u g' => exact ⟨u, g', rfl⟩
      obtain ⟨vq, ex, okc, bc, vc'⟩ := cancel_spec M hh (hG _ hg).1 (t := (m.1, c)) hq
      obtain ⟨out, ⟨N, hN⟩, ok, lead, red, sp⟩ := sub _ okc bc
      refine ⟨out, ⟨N + 1, ?_⟩, ok, ?_, red, ?_⟩
      · intro n hn acc
        obtain ⟨k, rfl⟩ : ∃ k, n = k + 1 := ⟨n - 1, by omega⟩
        rw [nfLoop]
        simp only [e]
        rw [hN k (by omega)]
      · intro m' vm' hm'
        refine lead m' vm' fun y hy => ?_
        exact M.lawful.trans _ _ _ vm' m.2.1 (okc.ok.monos y hy) (hm' (m.1, c) (by simp)) (bc y hy)
      · intro t ht
        have hm := ht (m.1, c) (by simp)
        have h1 := sp t fun x hx => ((hrm _ _ m.2.1 (okc.ok.monos x hx)).1 (bc x hx)).trans hm
        rw [vc'] at h1
        have h2 : monomial (expo q) (c / u.2) * val (u :: g') ∈ below r V (items G) t := by
          have : monomial (expo q) (c / u.2) * val (u :: g') = (c / u.2) • (monomial (expo q) 1 * val (u :: g')) := by
            rw [← smul_mul_assoc, smul_monomial, smul_eq_mul, mul_one]
          rw [this]
          refine Submodule.smul_mem _ _ (Submodule.subset_span ⟨toIt (u :: g'), ⟨_, hg, rfl⟩, expo q, (validIn_iff M.vo vq.1).1 vq, ?_, rfl⟩)
          show r (expo q + expo u.1) < t
          rw [← ex]; exact hm
        have := Submodule.add_mem _ h1 h2
        have e3 : val ((m.1, c) :: h) - val out = val ((m.1, c) :: h) - monomial (expo q) (c / u.2) * val (u :: g') - val out +
          monomial (expo q) (c / u.2) * val (u :: g') := by ring
        rw [e3]; exact this
  rcases h with _ | ⟨t, h⟩
  · exact hnil
  · exact main ⟨t.1, hh.keys t (by simp)⟩ t.2 h hh

end CLPoly.GB
