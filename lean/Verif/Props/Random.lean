import Verif.Random.Dense
import Verif.Random.RGraph
import Verif.Random.Many
import Verif.Props.Polynomials
import Verif.Props.Graphs

/-!
# C50: the random generators respect their contracts, for every random stream

The streams are universally quantified: `first`, `draws`, `cs`, `bs`, `dens`, `coin`, `sel` are the values the distributions return, restricted only to the range
the distribution was constructed with.  `Random.Fits n d`: the counting of the monomials of degree `≤ d` in `n` variables does not overflow `uint64_t`.
-/

namespace CLPoly
open Mono MvPolynomial Random

variable {R : Type*} [CommRing R] [DecidableEq R] {vc : Var → Var → Bool} {mc : Mono → Mono → Bool}

/-- `random_select(m,n)` returns `min(m,n)` pairwise different indices below `m`, in increasing order -/
theorem C50_random_select {m n : ℕ} {draws : List ℕ} (hlen : n < m → draws.length = n) (hd : ∀ d ∈ draws, d ≤ m - n) :
    (randomSelect m n true draws).Pairwise (· < ·) ∧ (∀ i ∈ randomSelect m n true draws, i < m) ∧ (randomSelect m n true draws).length = min n m :=
  randomSelect_noRepeat hlen hd

/-- `random_select(m,n,false)` returns `n` indices below `m` -/
theorem C50_random_select_repeat {m n : ℕ} {draws : List ℕ} (hm : 0 < m) (hlen : draws.length = n) (hd : ∀ d ∈ draws, d ≤ m - 1) :
    (randomSelect m n false draws).Pairwise (· ≤ ·) ∧ (∀ i ∈ randomSelect m n false draws, i < m) ∧ (randomSelect m n false draws).length = n :=
  randomSelect_repeat hm hlen hd

/-- `random_polynomial(v,deg,len,{a,b},is_add_num)`, if it returns: a canonical polynomial in the variables `v` of total degree exactly `deg` with `len` terms (or all monomials there are),
and a non-zero constant term if that was requested (one more term if need be); the coefficients are integers of the range. -/
theorem C50_random_polynomial (M : MonoOrd vc mc) {v : List Var} (hv : v.Nodup) (hne : v ≠ []) {deg len : ℕ} {addNum : Bool} {first : ℕ} {draws : List ℕ} {cs : List ℤ} {a b : ℤ}
    (hf : Fits v.length deg) (hfirst : first < (deg + v.length - 1).choose (v.length - 1))
    (hdl : len < (deg + v.length).choose v.length → draws.length = len - 1) (hd : ∀ d ∈ draws, d ≤ (deg + v.length).choose v.length - len)
    (hcs : ∀ c ∈ cs, (coefRange (a, b)).1 ≤ c ∧ c ≤ (coefRange (a, b)).2) {p : PV Mono R} (h : randomPoly R vc mc v deg len addNum first draws cs = some p) :
    PolyOK vc mc p ∧ (∀ x ∈ (val p).vars, x ∈ v) ∧ (∀ s ∈ (val p).support, ∃ c : ℤ, min a b ≤ c ∧ c ≤ max a b ∧ (val p).coeff s = (c : R)) ∧
      (0 < len → (val p).totalDegree = deg) ∧
      ((val p).support.card = min len ((deg + v.length).choose v.length) ∨
        addNum = true ∧ (val p).support.card = min len ((deg + v.length).choose v.length) + 1) ∧
      (addNum = true → 0 < len → (val p).coeff 0 ≠ 0) ∧ (len = 0 → p = []) := by
  refine randomPoly_spec M hv hne hf hfirst hdl hd (fun c hc => ?_) h
  have := hcs c hc
  unfold coefRange at this
  split at this
  · rename_i hlt
    rw [min_eq_right (le_of_lt hlt), max_eq_left (le_of_lt hlt)]; exact this
  · rename_i hlt
    rw [min_eq_left (not_lt.1 hlt), max_eq_right (not_lt.1 hlt)]; exact this

/-- it returns as soon as the stream of coefficients contains enough values that are non-zero in the coefficient ring … -/
theorem C50_random_polynomial_returns {v : List Var} {deg len : ℕ} {addNum : Bool} {first : ℕ} {draws : List ℕ} {cs : List ℤ}
    (hcs : draws.length + len + 2 + countUpto v.length deg ≤ cs.countP fun k : ℤ => decide ((k : R) ≠ 0)) :
    ∃ p, randomPoly R vc mc v deg len addNum first draws cs = some p := randomPoly_returns hcs

/-- … and never on a range without such a value, such as `{0,0}`, or multiples of the modulus for `Zp` -/
theorem C50_random_polynomial_stalls {v : List Var} {deg len : ℕ} {addNum : Bool} {first : ℕ} {draws : List ℕ} {cs : List ℤ} (hlen : 0 < len) (hf : Fits v.length deg)
    (hcs : ∀ c ∈ cs, (c : R) = 0) : randomPoly R vc mc v deg len addNum first draws cs = none :=
  randomPoly_stalls hlen (by rw [countUpto_eq hf]; exact Nat.choose_pos (by omega)) hcs

/-- `random_polynomial(v,deg,p,up,down)` always returns: a canonical polynomial in the variables `v` of total degree at most `deg` with coefficients of the range -/
theorem C50_random_polynomial_dense (M : MonoOrd vc mc) {v : List Var} (hv : v.Nodup) (hne : v ≠ []) (deg : ℕ) {lo hi : ℤ} :
    ∃ f0, ∀ f, f0 ≤ f → ∀ (bs : ℕ → Bool) (cs : ℕ → ℤ), (∀ i, lo ≤ cs i ∧ cs i ≤ hi) → ∃ p, randomDense R vc mc v deg f bs cs = some p ∧
      PolyOK vc mc p ∧ (∀ a ∈ (val p).vars, a ∈ v) ∧ (∀ s ∈ (val p).support, ∃ c : ℤ, lo ≤ c ∧ c ≤ hi ∧ (val p).coeff s = (c : R)) ∧
      (val p).totalDegree ≤ deg := randomDense_spec M hv hne deg

/-- `RandomSample(l,n)` returns the elements at `min(n, l.size())` pairwise different positions of `l` -/
theorem C50_random_sample {α : Type*} [Inhabited α] (l : List α) (n : ℕ) (sel : ℕ → ℕ) (hsel : ∀ i, 2 ≤ i → i ≤ min n l.length → 1 ≤ sel i ∧ sel i ≤ i) :
    ∃ js : List ℕ, js.Nodup ∧ (∀ j ∈ js, j < l.length) ∧ js.length = min n l.length ∧ (randomSample l n sel).map some = js.map (fun j => l[j]?) :=
  randomSample_spec l n sel hsel

/-- C58 is false: `RandomSample` never looks behind the first `n` elements: the sample is always a permutation of the first `min(n,size)` elements of the list -/
theorem C58_sample_is_a_prefix_refuted {α : Type*} [Inhabited α] (l : List α) (n : ℕ) (sel : ℕ → ℕ) (hsel : ∀ i, 2 ≤ i → i ≤ min n l.length → 1 ≤ sel i ∧ sel i ≤ i) :
    (randomSample l n sel).Perm (l.take n) := randomSample_prefix l n sel hsel

/-- `random_polynomial_QQ`: the monomials of the integer polynomial, each coefficient divided by an integer of `1..den_max` -/
theorem C50_random_polynomial_QQ (M : MonoOrd vc mc) {p : PV Mono ℤ} (hp : PolyOK vc mc p) (dens : ℕ → ℤ) {dm : ℤ} (hd : ∀ i, 1 ≤ dens i ∧ dens i ≤ dm) :
    PolyOK vc mc (randomQQ vc mc p dens) ∧ (val (randomQQ vc mc p dens)).support = (val p).support ∧
      ∀ s, ∃ d : ℤ, 1 ≤ d ∧ d ≤ dm ∧ (val (randomQQ vc mc p dens)).coeff s = (((val p).coeff s : ℤ) : ℚ) / (d : ℚ) := randomQQ_spec M hp dens hd

/-- `random_graph(nodes,p)`: the given nodes, and an undirected edge exactly between the pairs whose coin came up true -/
theorem C50_random_graph {α : Type*} [DecidableEq α] (nodes : List α) (hnd : nodes.Nodup) (coin : ℕ → ℕ → Bool) :
    (randomGraph nodes coin).nodes = nodes ∧ (randomGraph nodes coin).Undirected ∧
      ∀ a b, (randomGraph nodes coin).isEdge a b = true ↔ ∃ i j, nodes[i]? = some a ∧ nodes[j]? = some b ∧ ((i < j ∧ coin i j = true) ∨ (j < i ∧ coin j i = true)) :=
  randomGraph_spec nodes hnd coin

/-- `random_upolynomial(deg,len,{a,b})`, if it returns: a canonical univariate polynomial of degree exactly `deg` with `len` terms (at most all `deg+1`) and coefficients of the range -/
theorem C99_random_upolynomial (M : MonoOrd vc mc) {t : Var} {deg len first : ℕ} {draws : List ℕ} {cs : List ℤ} {a b : ℤ}
    (hf : Fits 1 deg) (hfirst : first = 0) (hdl : len < deg + 1 → draws.length = len - 1) (hd : ∀ d ∈ draws, d ≤ deg + 1 - len)
    (hcs : ∀ c ∈ cs, (coefRange (a, b)).1 ≤ c ∧ c ≤ (coefRange (a, b)).2) {u : Upoly.UPoly R} (h : randomUpoly R vc mc t deg len first draws cs = some u) :
    ∃ F : Polynomial R, Upoly.Is u F ∧ (0 < len → F.natDegree = deg) ∧ F.support.card = min len (deg + 1) ∧
      ∀ k ∈ F.support, ∃ c : ℤ, min a b ≤ c ∧ c ≤ max a b ∧ F.coeff k = (c : R) := by
  refine randomUpoly_spec M hf hfirst hdl hd (fun c hc => ?_) h
  have := hcs c hc
  unfold coefRange at this
  split at this
  · rename_i hlt
    rw [min_eq_right (le_of_lt hlt), max_eq_left (le_of_lt hlt)]; exact this
  · rename_i hlt
    rw [min_eq_left (not_lt.1 hlt), max_eq_right (not_lt.1 hlt)]; exact this

/-- `random_polynomials(vars,deg,p1,p2,up,down)` always returns, for every random stream: as many polynomials as there are variables with a neighbour in the random graph,
each canonical, in variables of `vars`, of total degree at most `deg` with coefficients of the range; two different variables of one polynomial are joined in the random graph -/
theorem C99_random_polynomials (M : MonoOrd vc mc) {vars : List Var} (hnd : vars.Nodup) (deg : ℕ) (coin : ℕ → ℕ → Bool) {lo hi : ℤ} :
    ∃ f0, ∀ f, f0 ≤ f → ∀ (bs : ℕ → ℕ → Bool) (cs : ℕ → ℕ → ℤ), (∀ t i, lo ≤ cs t i ∧ cs t i ≤ hi) →
      ∃ l, randomPolys R vc mc vars deg f coin bs cs = some l ∧
        l.length = vars.countP (fun v => decide (∃ b ∈ vars, (randomGraph vars coin).isEdge v b = true)) ∧
        ∀ p ∈ l, PolyOK vc mc p ∧ (val p).totalDegree ≤ deg ∧ (∀ s ∈ (val p).support, ∃ c : ℤ, lo ≤ c ∧ c ≤ hi ∧ (val p).coeff s = (c : R)) ∧
          (∀ a ∈ (val p).vars, a ∈ vars) ∧ ∀ a ∈ (val p).vars, ∀ b ∈ (val p).vars, a ≠ b → (randomGraph vars coin).isEdge a b = true :=
  randomPolys_spec M hnd deg coin

/-- the associated graph of the result is a subgraph of the random graph: the sparsity asked for is kept -/
theorem C99_associatedgraph (M : MonoOrd vc mc) {vars : List Var} (hnd : vars.Nodup) (deg : ℕ) (coin : ℕ → ℕ → Bool) {lo hi : ℤ} :
    ∃ f0, ∀ f, f0 ≤ f → ∀ (bs : ℕ → ℕ → Bool) (cs : ℕ → ℕ → ℤ), (∀ t i, lo ≤ cs t i ∧ cs t i ≤ hi) →
      ∃ l, randomPolys R vc mc vars deg f coin bs cs = some l ∧
        ∀ a b, (associatedGraph vc l).isEdge a b = true → ∃ i j, vars[i]? = some a ∧ vars[j]? = some b ∧ ((i < j ∧ coin i j = true) ∨ (j < i ∧ coin j i = true)) := by
  obtain ⟨f0, h0⟩ := randomPolys_spec (R := R) M hnd deg coin (lo := lo) (hi := hi)
  refine ⟨f0, fun f hf bs cs hcs => ?_⟩
  obtain ⟨l, hl, -, hp⟩ := h0 f hf bs cs hcs
  refine ⟨l, hl, fun a b hab => ?_⟩
  obtain ⟨hne, p, hpl, ha, hb⟩ := ((C33_associatedgraph M l fun p h => (hp p h).1).2.2 a b).1 hab
  exact ((randomGraph_spec vars hnd coin).2.2 a b).1 ((hp p hpl).2.2.2.2 a ha b hb hne)

/-! concrete cases: the hypotheses are met -/
example : Fits 1 1000 ∧ randomUpoly ℤ varLess (grlexGt varLess) 1 5 3 0 [2, 0] [4, 0, -3, 5] = some [(5, 4), (3, 5), (0, -3)] := by
  refine ⟨by unfold Fits; rw [Nat.choose_one_right]; norm_num, by decide +kernel⟩
example : randomPolys ℤ varLess (grlexGt varLess) [1, 2] 1 20 (fun _ _ => true) (fun _ _ => true) (fun t i => (t : ℤ) + i + 1) =
    some [[(exXY 1 0, 1), (exXY 0 1, 2), (exXY 0 0, 3)], [(exXY 1 0, 3), (exXY 0 1, 2), (exXY 0 0, 4)]] := by decide +kernel
example : randomPolys ℤ varLess (grlexGt varLess) [1, 2] 1 20 (fun _ _ => false) (fun _ _ => true) (fun _ _ => 1) = some [] := by decide +kernel
example : Fits 2 3 := by unfold Fits; decide
example : randomSelect 10 3 true [7, 0, 2] = [0, 3, 9] ∧ randomSelect 3 5 true [] = [0, 1, 2] := by decide +kernel
example : randomPoly ℤ varLess (grlexGt varLess) [1, 2] 2 3 true 1 [2, 0] [0, 4, -3, 0, 5, 7] =
    some [(exXY 1 1, 4), (exXY 0 2, 5), (exXY 0 0, -3)] := by decide +kernel
example : (1 : ℕ) < (2 + 2 - 1).choose (2 - 1) ∧ [2, 0].length = 3 - 1 ∧ ∀ d ∈ [2, 0], d ≤ (2 + 2).choose 2 - 3 := by decide
example : randomDense ℤ varLess (grlexGt varLess) [1, 2] 1 20 (fun i => i ≠ 1) (fun i => i + 1) = some [(exXY 1 0, 1), (exXY 0 0, 3)] := by decide +kernel
example : randomSample [10, 20, 30, 40] 3 (fun _ => 2) = [20, 30, 10] := by decide +kernel

end CLPoly
