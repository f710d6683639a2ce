import Verif.Random.Dense
import Verif.Random.RGraph
import Verif.Factor.Bridge

/-!
# `random_polynomials` and `random_upolynomial` (random.hh 301–310, 346–388)
-/

namespace CLPoly.Random
open CLPoly Graph MvPolynomial Mono Factor

section
variable {α : Type _} [DecidableEq α] [Inhabited α]

/-- random.hh 363–382: the loop over the neighbours of node `i`; `vl` is `v_l` -/
def greedy (G : Graph α) (i : ℕ) (vl : List α) (js : List ℕ) : List α :=
  js.foldl (fun vl j => if j ≠ i ∧ vl.all (fun k => G.isEdge k (G.nodes.getD j default)) then vl ++ [G.nodes.getD j default] else vl) vl

/-- random.hh 357–382: `v_l` for the node `v` (`G.index(v)` is the position of `v`) -/
def cliqueAt (G : Graph α) (v : α) : List α :=
  let i := (G.find v).getD 0
  greedy G i [v] (G.adj.getD i [])

end

/-- all results, if every entry has one -/
def allSome {α : Type _} : List (Option α) → Option (List α)
  | [] => some []
  | none :: _ => none
  | some a :: l => (allSome l).map (a :: ·)

/-- random.hh 352–388 `random_polynomials`: `coin` are the draws of `random_graph`; `bs t`, `cs t` those of the `t`-th call of `random_polynomial`; `f` is the fuel of that call -/
def randomPolys (R : Type _) [IntCast R] [Zero R] [Add R] [DecidableEq R] (vc : Var → Var → Bool) (mc : Mono → Mono → Bool)
    (vars : List Var) (deg f : ℕ) (coin : ℕ → ℕ → Bool) (bs : ℕ → ℕ → Bool) (cs : ℕ → ℕ → ℤ) : Option (List (PV Mono R)) :=
  let G := randomGraph vars coin
  let vls := (G.nodes.map (cliqueAt G)).filter fun vl => decide (1 < vl.length)
  allSome (vls.zipIdx.map fun x => randomDense R vc mc x.1 deg f (bs x.2) (cs x.2))

/-- random.hh 301–310 `random_upolynomial`: `t` is the variable named `_t` -/
def randomUpoly (R : Type _) [IntCast R] [Zero R] [Add R] [DecidableEq R] (vc : Var → Var → Bool) (mc : Mono → Mono → Bool)
    (t : Var) (deg len first : ℕ) (draws : List ℕ) (cs : List ℤ) : Option (Upoly.UPoly R) :=
  (randomPoly R vc mc [t] deg len false first draws cs).map polyToUpoly

section
variable {α : Type*} [DecidableEq α] [Inhabited α]

theorem greedy_cons (G : Graph α) (i : ℕ) (vl : List α) (j : ℕ) (js : List ℕ) :
    greedy G i vl (j :: js) = greedy G i (if j ≠ i ∧ vl.all (fun k => G.isEdge k (G.nodes.getD j default)) then vl ++ [G.nodes.getD j default] else vl) js := rfl

theorem greedy_spec {G : Graph α} (h : G.WF) (hsym : ∀ a b, G.isEdge a b = true → G.isEdge b a = true) (hirr : ∀ a, G.isEdge a a = false) (i : ℕ) :
    ∀ (js : List ℕ) (vl : List α), (vl.Pairwise fun a b => G.isEdge a b = true) → (∀ j ∈ js, j < G.nodes.length) → (∀ a ∈ vl, a ∈ G.nodes) →
      ((greedy G i vl js).Pairwise fun a b => G.isEdge a b = true) ∧ vl <+: greedy G i vl js ∧ ∀ a ∈ greedy G i vl js, a ∈ G.nodes
  | [], vl, hp, _, hn => ⟨hp, List.prefix_refl _, hn⟩
  | j :: js, vl, hp, hj, hn => by
    rw [greedy_cons]
    have hj1 := hj j (by simp)
    have hg : G.nodes.getD j default = G.nodes[j] := by rw [List.getD_eq_getElem?_getD, List.getElem?_eq_getElem hj1]; rfl
    split
    · rename_i hc
      have hall : ∀ k ∈ vl, G.isEdge k (G.nodes.getD j default) = true := by simpa using hc.2
      obtain ⟨a1, a2, a3⟩ := greedy_spec h hsym hirr i js (vl ++ [G.nodes.getD j default])
        (List.pairwise_append.2 ⟨hp, List.pairwise_singleton _ _, fun a ha b hb => by rw [List.mem_singleton] at hb; rw [hb]; exact hall a ha⟩)
        (fun k hk => hj k (List.mem_cons_of_mem _ hk))
        (fun a ha => by
          rcases List.mem_append.1 ha with ha | ha
          · exact hn a ha
          · rw [List.mem_singleton] at ha; rw [ha, hg]; exact List.getElem_mem _)
      exact ⟨a1, (List.prefix_append _ _).trans a2, a3⟩
    · exact greedy_spec h hsym hirr i js vl hp (fun k hk => hj k (List.mem_cons_of_mem _ hk)) hn

/-- the set collected for a node: pairwise joined, starts with the node, and has a second element exactly if the node has a neighbour -/
theorem cliqueAt_spec {G : Graph α} (h : G.WF) (hsym : ∀ a b, G.isEdge a b = true → G.isEdge b a = true) (hirr : ∀ a, G.isEdge a a = false) {v : α} (hv : v ∈ G.nodes) :
    (cliqueAt G v).Nodup ∧ v ∈ cliqueAt G v ∧ (∀ a ∈ cliqueAt G v, ∀ b ∈ cliqueAt G v, a ≠ b → G.isEdge a b = true) ∧
      (1 < (cliqueAt G v).length ↔ ∃ b, G.isEdge v b = true) := by
  obtain ⟨i, hi⟩ := List.mem_iff_getElem?.1 hv
  have hf : G.find v = some i := (h.find_iff v i).2 hi
  have hc : cliqueAt G v = greedy G i [v] (G.adj.getD i []) := by unfold cliqueAt; rw [hf]; rfl
  have hedge : ∀ j ∈ G.adj.getD i [], G.isEdge v (G.nodes.getD j default) = true := fun j hj => by
    have hjl := h.lt i j hj
    rw [h.isEdge_iff]
    refine ⟨i, j, hi, ?_, by rw [isEdgeIdx_iff]; exact hj⟩
    rw [List.getD_eq_getElem?_getD, List.getElem?_eq_getElem hjl]; rfl
  obtain ⟨a1, a2, a3⟩ := greedy_spec h hsym hirr i (G.adj.getD i []) [v] (List.pairwise_singleton _ _) (fun j hj => h.lt i j hj)
    (fun a ha => by rw [List.mem_singleton] at ha; rw [ha]; exact hv)
  rw [← hc] at a1 a2 a3
  have hmem : v ∈ cliqueAt G v := a2.subset (by simp)
  have hpair : ∀ a ∈ cliqueAt G v, ∀ b ∈ cliqueAt G v, a ≠ b → G.isEdge a b = true := fun a ha b hb hne =>
    List.Pairwise.forall_of_forall_of_flip (R := fun a b => a ≠ b → G.isEdge a b = true) (fun _ _ hx => absurd rfl hx)
      (a1.imp (S := fun a b => a ≠ b → G.isEdge a b = true) fun hx _ => hx) (a1.imp (S := flip fun a b => a ≠ b → G.isEdge a b = true) fun hx _ => hsym _ _ hx) ha hb hne
  refine ⟨a1.imp fun hab e => by rw [e, hirr] at hab; exact absurd hab (by simp), hmem, hpair, fun hl => ?_, fun ⟨b, hb⟩ => ?_⟩
  · obtain ⟨t, ht⟩ := a2
    rw [← ht] at hl hpair
    cases t with
    | nil => simp at hl
    | cons b t =>
      rw [← ht] at a1
      exact ⟨b, (List.pairwise_append.1 a1).2.2 v (by simp) b (by simp)⟩
  · rw [h.isEdge_iff] at hb
    obtain ⟨i', j, hi', hj, he⟩ := hb
    have hii : i' = i := by
      have := (h.find_iff v i').2 hi'
      rw [hf] at this; exact (Option.some.inj this).symm
    rw [hii, isEdgeIdx_iff] at he
    obtain ⟨j0, js, hjs⟩ : ∃ j0 js, G.adj.getD i [] = j0 :: js := List.exists_cons_of_ne_nil (List.ne_nil_of_mem he)
    have h0 := hedge j0 (by rw [hjs]; simp)
    have hne : j0 ≠ i := fun e => by
      have hg : G.nodes.getD j0 default = v := by rw [e, List.getD_eq_getElem?_getD, hi]; rfl
      rw [hg, hirr] at h0; exact absurd h0 (by simp)
    have : cliqueAt G v = greedy G i ([v] ++ [G.nodes.getD j0 default]) js := by
      rw [hc, hjs, greedy_cons, if_pos ⟨hne, by simpa using h0⟩]
    obtain ⟨_, b2, _⟩ := greedy_spec h hsym hirr i js ([v] ++ [G.nodes.getD j0 default])
      (List.pairwise_append.2 ⟨List.pairwise_singleton _ _, List.pairwise_singleton _ _, fun a ha b hb => by
        rw [List.mem_singleton] at ha hb; rw [ha, hb]; exact h0⟩)
      (fun k hk => h.lt i k (by rw [hjs]; simp [hk]))
      (fun a ha => by
        rcases List.mem_append.1 ha with ha | ha <;> rw [List.mem_singleton] at ha
        · rw [ha]; exact hv
        · rw [ha]
          have := h.lt i j0 (by rw [hjs]; simp)
          rw [List.getD_eq_getElem?_getD, List.getElem?_eq_getElem this]
          exact List.getElem_mem _)
    rw [this]
    have := b2.length_le
    simp only [List.length_append, List.length_cons, List.length_nil] at this
    omega

end

theorem allSome_of {α β : Type*} {Q : β → α → Prop} : ∀ {l : List β} {g : β → Option α}, (∀ b ∈ l, ∃ a, g b = some a ∧ Q b a) →
    ∃ r, allSome (l.map g) = some r ∧ List.Forall₂ Q l r
  | [], _, _ => ⟨[], rfl, .nil⟩
  | b :: l, g, h => by
    obtain ⟨a, ha, hq⟩ := h b (by simp)
    obtain ⟨r, hr, hf⟩ := allSome_of (l := l) (g := g) (Q := Q) fun c hc => h c (List.mem_cons_of_mem _ hc)
    refine ⟨a :: r, ?_, .cons hq hf⟩
    rw [List.map_cons, ha]
    show (allSome (l.map g)).map _ = _
    rw [hr]; rfl

variable {R : Type*} [CommRing R] [DecidableEq R] {vc : Var → Var → Bool} {mc : Mono → Mono → Bool}

/-- a fuel that suffices for each of finitely many variable lists -/
theorem dense_all (M : MonoOrd vc mc) (deg : ℕ) {lo hi : ℤ} : ∀ (vls : List (List Var)), (∀ v ∈ vls, v.Nodup ∧ v ≠ []) →
    ∃ f0, ∀ f, f0 ≤ f → ∀ v ∈ vls, ∀ (bs : ℕ → Bool) (cs : ℕ → ℤ), (∀ i, lo ≤ cs i ∧ cs i ≤ hi) → ∃ p, randomDense R vc mc v deg f bs cs = some p ∧
      PolyOK vc mc p ∧ (∀ a ∈ (val p).vars, a ∈ v) ∧ (∀ s ∈ (val p).support, ∃ c : ℤ, lo ≤ c ∧ c ≤ hi ∧ (val p).coeff s = (c : R)) ∧
      (val p).totalDegree ≤ deg
  | [], _ => ⟨0, by simp⟩
  | v :: vls, h => by
    obtain ⟨f1, h1⟩ := dense_all M deg (lo := lo) (hi := hi) vls fun w hw => h w (List.mem_cons_of_mem _ hw)
    obtain ⟨f2, h2⟩ := randomDense_spec (R := R) M (h v (by simp)).1 (h v (by simp)).2 deg (lo := lo) (hi := hi)
    refine ⟨max f1 f2, fun f hf w hw => ?_⟩
    rcases List.mem_cons.1 hw with rfl | hw
    · exact h2 f (le_trans (le_max_right _ _) hf)
    · exact h1 f (le_trans (le_max_left _ _) hf) w hw

/-- `random_polynomials`: one polynomial for every variable that has a neighbour in the random graph; the variables of a polynomial are pairwise joined -/
theorem randomPolys_spec (M : MonoOrd vc mc) {vars : List Var} (hnd : vars.Nodup) (deg : ℕ) (coin : ℕ → ℕ → Bool) {lo hi : ℤ} :
    ∃ f0, ∀ f, f0 ≤ f → ∀ (bs : ℕ → ℕ → Bool) (cs : ℕ → ℕ → ℤ), (∀ t i, lo ≤ cs t i ∧ cs t i ≤ hi) →
      ∃ l, randomPolys R vc mc vars deg f coin bs cs = some l ∧
        l.length = vars.countP (fun v => decide (∃ b ∈ vars, (randomGraph vars coin).isEdge v b = true)) ∧
        ∀ p ∈ l, PolyOK vc mc p ∧ (val p).totalDegree ≤ deg ∧ (∀ s ∈ (val p).support, ∃ c : ℤ, lo ≤ c ∧ c ≤ hi ∧ (val p).coeff s = (c : R)) ∧
          (∀ a ∈ (val p).vars, a ∈ vars) ∧ ∀ a ∈ (val p).vars, ∀ b ∈ (val p).vars, a ≠ b → (randomGraph vars coin).isEdge a b = true := by
  obtain ⟨g1, g2, g3⟩ := randomGraph_spec vars hnd coin
  obtain ⟨G, hG⟩ : ∃ G, G = randomGraph vars coin := ⟨_, rfl⟩
  rw [← hG] at g1 g2 g3 ⊢
  have hirr : ∀ a, G.isEdge a a = false := fun a => by
    by_contra hc
    rw [Bool.not_eq_false, g3] at hc
    obtain ⟨i, j, hi, hj, h⟩ := hc
    have hil := (List.getElem?_eq_some_iff.1 hi).1
    have hij : i = j := by
      exact (List.getElem?_inj hil hnd).1 (hi.trans hj.symm)
    omega
  have hcl : ∀ v ∈ vars, _ := fun v hv => cliqueAt_spec g2.1 g2.2 hirr (v := v) (by rw [g1]; exact hv)
  obtain ⟨vls, hvls⟩ : ∃ vls, vls = (G.nodes.map (cliqueAt G)).filter fun vl => decide (1 < vl.length) := ⟨_, rfl⟩
  have hin : ∀ vl ∈ vls, ∃ v ∈ vars, vl = cliqueAt G v := fun vl h => by
    rw [hvls, List.mem_filter, List.mem_map, g1] at h
    obtain ⟨⟨v, hv, rfl⟩, _⟩ := h
    exact ⟨v, hv, rfl⟩
  obtain ⟨f0, h0⟩ := dense_all (R := R) M deg (lo := lo) (hi := hi) vls fun vl h => by
    obtain ⟨v, hv, rfl⟩ := hin vl h
    exact ⟨(hcl v hv).1, List.ne_nil_of_mem (hcl v hv).2.1⟩
  refine ⟨f0, fun f hf bs cs hcs => ?_⟩
  obtain ⟨l, hl, hq⟩ := allSome_of (l := vls.zipIdx) (g := fun x => randomDense R vc mc x.1 deg f (bs x.2) (cs x.2))
    (Q := fun x p => x.1 ∈ vls ∧ PolyOK vc mc p ∧ (∀ a ∈ (val p).vars, a ∈ x.1) ∧ (∀ s ∈ (val p).support, ∃ c : ℤ, lo ≤ c ∧ c ≤ hi ∧ (val p).coeff s = (c : R)) ∧
      (val p).totalDegree ≤ deg) (fun x hx => by
      have hm : x.1 ∈ vls := (List.mem_zipIdx' hx).2 ▸ List.getElem_mem _
      obtain ⟨p, hp, hr⟩ := h0 f hf x.1 hm (bs x.2) (cs x.2) (hcs x.2)
      exact ⟨p, hp, hm, hr⟩)
  refine ⟨l, by unfold randomPolys; rw [← hG]; show allSome (((((G.nodes.map (cliqueAt G)).filter fun vl => decide (1 < vl.length))).zipIdx).map _) = _; rw [← hvls]; exact hl, ?_, fun p hp => ?_⟩
  · rw [← hq.length_eq, List.length_zipIdx, hvls, g1, ← List.countP_eq_length_filter, List.countP_map]
    refine List.countP_congr fun v hv => ?_
    simp only [Function.comp_apply, decide_eq_true_eq]
    rw [(hcl v hv).2.2.2]
    refine ⟨fun ⟨b, hb⟩ => ⟨b, ?_, hb⟩, fun ⟨b, _, hb⟩ => ⟨b, hb⟩⟩
    obtain ⟨i, j, _, hj, _⟩ := (g3 _ _).1 hb
    exact List.mem_of_getElem? hj
  · obtain ⟨x, hx, hm, q1, q2, q3, q4⟩ : ∃ x ∈ vls.zipIdx, x.1 ∈ vls ∧ PolyOK vc mc p ∧ (∀ a ∈ (val p).vars, a ∈ x.1) ∧ (∀ s ∈ (val p).support, ∃ c : ℤ, lo ≤ c ∧ c ≤ hi ∧ (val p).coeff s = (c : R)) ∧
        (val p).totalDegree ≤ deg := by
      have := (List.forall₂_iff_get.1 hq)
      obtain ⟨n, rfl⟩ := List.mem_iff_get.1 hp
      refine ⟨_, List.get_mem _ ⟨n.1, by rw [this.1]; exact n.2⟩, this.2 n.1 (by rw [this.1]; exact n.2) n.2⟩
    obtain ⟨v, hv, hvl⟩ := hin x.1 hm
    refine ⟨q1, q4, q3, fun a ha => ?_, fun a ha b hb hne => ?_⟩
    · have ha' := q2 a ha
      rw [hvl] at ha'
      by_cases e : v = a
      · exact e ▸ hv
      · obtain ⟨i, j, _, hj, _⟩ := (g3 _ _).1 ((hcl v hv).2.2.1 v (hcl v hv).2.1 a ha' e)
        exact List.mem_of_getElem? hj
    · have ha' := q2 a ha
      have hb' := q2 b hb
      rw [hvl] at ha' hb'
      exact (hcl v hv).2.2.1 a ha' b hb' hne

theorem coeff_emb (v : Var) (F : Polynomial R) (k : ℕ) : (emb v F).coeff (Finsupp.single v k) = F.coeff k := by
  classical
  rw [F.as_sum_range_C_mul_X_pow, map_sum, coeff_sum, Polynomial.finset_sum_coeff]
  refine Finset.sum_congr rfl fun i _ => ?_
  rw [Polynomial.C_mul_X_pow_eq_monomial, emb_monomial, coeff_monomial, Polynomial.coeff_monomial]
  have : (Finsupp.single v i = Finsupp.single v k) ↔ i = k := ⟨fun h => Finsupp.single_injective v h, fun h => by rw [h]⟩
  by_cases h : i = k <;> simp [this, h]

/-- a polynomial in one variable and its univariate image have the same coefficients -/
theorem ret_one {v : Var} {f : MvPolynomial Var R} (h : f.vars ⊆ {v}) : (∀ k, (ret f).coeff k = f.coeff (Finsupp.single v k)) ∧
    f.support = (ret f).support.image (Finsupp.single v) := by
  classical
  have h1 : ∀ k, (ret f).coeff k = f.coeff (Finsupp.single v k) := fun k => by
    conv_rhs => rw [← emb_ret h]
    rw [coeff_emb]
  refine ⟨h1, ?_⟩
  ext s
  rw [Finset.mem_image]
  constructor
  · intro hs
    have he : s = Finsupp.single v (s v) := by
      ext w
      by_cases hw : w = v
      · rw [hw, Finsupp.single_eq_same]
      · rw [Finsupp.single_eq_of_ne hw]
        by_contra hc
        exact hw (Finset.mem_singleton.1 (h ((mem_vars _).2 ⟨s, hs, Finsupp.mem_support_iff.2 hc⟩)))
    exact ⟨s v, by rw [Polynomial.mem_support_iff, h1, ← he]; exact mem_support_iff.1 hs, he.symm⟩
  · rintro ⟨k, hk, rfl⟩
    rw [mem_support_iff, ← h1]
    exact Polynomial.mem_support_iff.1 hk

/-- `random_upolynomial` -/
theorem randomUpoly_spec (M : MonoOrd vc mc) {t : Var} {deg len first : ℕ} {draws : List ℕ} {cs : List ℤ} {lo hi : ℤ}
    (hf : Fits 1 deg) (hfirst : first = 0) (hdl : len < deg + 1 → draws.length = len - 1) (hd : ∀ d ∈ draws, d ≤ deg + 1 - len)
    (hcs : ∀ c ∈ cs, lo ≤ c ∧ c ≤ hi) {u : Upoly.UPoly R} (h : randomUpoly R vc mc t deg len first draws cs = some u) :
    ∃ F : Polynomial R, Upoly.Is u F ∧ (0 < len → F.natDegree = deg) ∧ F.support.card = min len (deg + 1) ∧
      ∀ k ∈ F.support, ∃ c : ℤ, lo ≤ c ∧ c ≤ hi ∧ F.coeff k = (c : R) := by
  classical
  unfold randomUpoly at h
  cases hp : randomPoly R vc mc [t] deg len false first draws cs with
  | none => rw [hp] at h; exact absurd h (by simp)
  | some p =>
    rw [hp, Option.map_some] at h
    obtain rfl := Option.some.inj h
    obtain ⟨h1, h2, h3, h4, h5, -, h7⟩ := randomPoly_spec M (v := [t]) (by simp) (by simp) hf (by simp [hfirst]) (by simpa using hdl) (by simpa using hd) hcs hp
    have hv : (val p).vars ⊆ {t} := fun a ha => by simpa using h2 a ha
    obtain ⟨r1, r2⟩ := ret_one hv
    refine ⟨ret (val p), polyToUpoly_spec M.vo M h1 hv, fun hl => ?_, ?_, fun k hk => ?_⟩
    · rw [← h4 hl]
      apply le_antisymm
      · rw [Polynomial.natDegree_le_iff_coeff_eq_zero]
        intro N hN
        rw [r1]
        refine coeff_eq_zero_of_totalDegree_lt ?_
        by_cases h0 : N = 0
        · omega
        · rw [Finsupp.support_single_ne_zero _ h0]; simpa using hN
      · refine totalDegree_le_of fun s hs => ?_
        rw [r2, Finset.mem_image] at hs
        obtain ⟨k, hk, rfl⟩ := hs
        simpa using Polynomial.le_natDegree_of_mem_supp _ hk
    · have hc : (val p).support.card = (ret (val p)).support.card := by
        rw [r2, Finset.card_image_of_injective _ (Finsupp.single_injective t)]
      rw [← hc]
      rcases h5 with h5 | h5
      · simpa using h5
      · exact absurd h5.1 (by simp)
    · obtain ⟨c, c1, c2, c3⟩ := h3 (Finsupp.single t k) (by rw [r2]; exact Finset.mem_image_of_mem _ hk)
      exact ⟨c, c1, c2, by rw [r1, c3]⟩

end CLPoly.Random
