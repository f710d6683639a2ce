import Verif.Upoly.VHRows
import Verif.Upoly.LLLShort

/-!
# C75 (lattice reduction `__lll_reduce`), C76 (`__cld_polys`), C46 and C63 for the factorization with the lattice

Matrices of the code are functions of two indices; `mat n M` is the `n × n` matrix stored in `M`.
-/

namespace CLPoly
open Upoly Polynomial

/-- the `n × n` matrix stored -/
def mat (n : ℕ) (M : ℕ → ℕ → ℤ) : Matrix (Fin n) (Fin n) ℤ := Matrix.of fun i j => M i j

/-- **specification**: the rows of `A` are a reduced basis (Lenstra, Lenstra, Lovász, with 3/4): with the orthogonalization `b` of the rows and its coefficients `mu` -/
def LLLReduced {n : ℕ} (A : Matrix (Fin n) (Fin n) ℤ) : Prop :=
  ∃ (b : Fin n → Fin n → ℚ) (mu : Fin n → Fin n → ℚ),
    (∀ i c, (A i c : ℚ) = b i c + ∑ j : Fin n, if j < i then mu i j * b j c else 0) ∧
    (∀ i j, j < i → ∑ c, b i c * b j c = 0) ∧
    (∀ i j, j < i → |mu i j| ≤ 1 / 2) ∧
    ∀ i j : Fin n, (i : ℕ) + 1 = j → (3 / 4 - mu j i ^ 2) * ∑ c, b i c ^ 2 ≤ ∑ c, b j c ^ 2

/-! ## C75 -/

theorem lllReduce_inv {fuel n : ℕ} (hn : 1 ≤ n) {M : ℕ → ℕ → ℤ} (hM : (mat n M).det ≠ 0) {B : ℤ} {M' U : ℕ → ℕ → ℤ} {l : List ℕ} (h : lllReduce fuel n M B = some (M', U, l)) :
    ∃ s, LInv n M (gsInit n M).2 n s ∧ s.M = M' ∧ s.U = U ∧ l = shortRows n M' B := by
  unfold lllReduce at h
  rw [Option.map_eq_some_iff] at h
  obtain ⟨s, h1, h2⟩ := h
  cases h2
  exact ⟨s, lllLoop_inv _ _ _ _ le_rfl hn (lllInit_inv hn hM) h1, rfl, rfl, rfl⟩

/-- `__lll_reduce` returns for every nonsingular matrix, with the same result for all larger bounds on the number of rounds -/
theorem C75_lll_returns {n : ℕ} (hn : 1 ≤ n) {M : ℕ → ℕ → ℤ} (hM : (mat n M).det ≠ 0) (B : ℤ) : ∃ r fuel, ∀ fuel', fuel ≤ fuel' → lllReduce fuel' n M B = some r := by
  obtain ⟨fuel, h⟩ := lllReduce_total hn hM B
  obtain ⟨r, hr⟩ := Option.ne_none_iff_exists'.1 h
  refine ⟨r, fuel, fun fuel' hf => ?_⟩
  obtain ⟨d, rfl⟩ := Nat.exists_eq_add_of_le hf
  exact lllReduce_mono hr d

/-- `M` is replaced by `U·M` with `det U = ±1` -/
theorem C75_lll_unimodular {fuel n : ℕ} (hn : 1 ≤ n) {M : ℕ → ℕ → ℤ} (hM : (mat n M).det ≠ 0) {B : ℤ} {M' U : ℕ → ℕ → ℤ} {l : List ℕ} (h : lllReduce fuel n M B = some (M', U, l)) :
    mat n M' = mat n U * mat n M ∧ ((mat n U).det = 1 ∨ (mat n U).det = -1) := by
  obtain ⟨s, hi, rfl, rfl, _⟩ := lllReduce_inv hn hM h
  refine ⟨?_, hi.uni.det⟩
  ext i c
  rw [Matrix.mul_apply, show mat n s.M i c = s.M i c from rfl, hi.uni.mul i i.2 c c.2, Finset.sum_range]
  rfl

/-- the new rows are a reduced basis -/
theorem C75_lll_reduced {fuel n : ℕ} (hn : 1 ≤ n) {M : ℕ → ℕ → ℤ} (hM : (mat n M).det ≠ 0) {B : ℤ} {M' U : ℕ → ℕ → ℤ} {l : List ℕ} (h : lllReduce fuel n M B = some (M', U, l)) : LLLReduced (mat n M') := by
  obtain ⟨s, hi, rfl, rfl, _⟩ := lllReduce_inv hn hM h
  obtain ⟨bs, g⟩ := hi.gs
  have hip : ∀ i j : Fin n, ∑ c : Fin n, bs i c * bs j c = ip n (bs i) (bs j) := fun i j => by unfold ip; rw [Finset.sum_range]
  have hsq : ∀ i : Fin n, ∑ c : Fin n, bs i c ^ 2 = s.B i := fun i => by
    rw [g.norm i i.2, ← hip]
    exact Finset.sum_congr rfl fun c _ => sq _
  refine ⟨fun i c => bs i c, fun i j => s.mu i j, fun i c => ?_, fun i j hij => ?_, fun i j hij => hi.red i i.2 j hij, fun i j hij => ?_⟩
  · rw [show mat n s.M i c = s.M i c from rfl, g.row i i.2 c c.2]
    congr 1
    have := Finset.sum_range (n := n) fun j => if j < (i : ℕ) then s.mu i j * bs j c else 0
    simp only [← Fin.lt_def] at this ⊢
    rw [show (∑ j : Fin n, if j < i then s.mu i j * bs j c else 0) = ∑ j : Fin n, if (j : ℕ) < i then s.mu i j * bs j c else 0 from rfl,
      ← Finset.sum_range (n := n) fun j => if j < (i : ℕ) then s.mu i j * bs j c else 0, ← Finset.sum_filter]
    refine Finset.sum_congr ?_ fun _ _ => rfl
    ext j
    have := i.2
    simp only [Finset.mem_range, Finset.mem_filter]
    omega
  · rw [hip]; exact g.orth i i.2 j hij
  · rw [hsq, hsq]
    have := hi.lov i (by have := j.2; omega)
    rw [hij] at this
    rw [sq]
    exact this

/-- the first new row is at most `2^((n-1)/2)` times as long as the shortest nonzero vector of the lattice spanned by the rows of `M` -/
theorem C75_lll_first_row {fuel n : ℕ} (hn : 1 ≤ n) {M : ℕ → ℕ → ℤ} (hM : (mat n M).det ≠ 0) {B : ℤ} {M' U : ℕ → ℕ → ℤ} {l : List ℕ} (h : lllReduce fuel n M B = some (M', U, l))
    (z : Fin n → ℤ) (hz : Matrix.vecMul z (mat n M) ≠ 0) : ∑ c : Fin n, M' 0 c ^ 2 ≤ 2 ^ (n - 1) * ∑ c : Fin n, (Matrix.vecMul z (mat n M)) c ^ 2 := by
  obtain ⟨s, hi, rfl, rfl, _⟩ := lllReduce_inv hn hM h
  obtain ⟨bs, g⟩ := hi.gs
  obtain ⟨y, hy⟩ := hi.uni.combo fun t => if h : t < n then z ⟨t, h⟩ else 0
  have hv : ∀ c : Fin n, Matrix.vecMul z (mat n M) c = ∑ t ∈ Finset.range n, y t * s.M t c := fun c => by
    rw [hy c c.2, Finset.sum_range]
    unfold Matrix.vecMul dotProduct
    exact Finset.sum_congr rfl fun t _ => by rw [dif_pos t.2]; rfl
  have hy0 : ∃ t < n, y t ≠ 0 := by
    by_contra hc
    push Not at hc
    refine hz (funext fun c => ?_)
    rw [hv]
    exact Finset.sum_eq_zero fun t ht => by rw [hc t (Finset.mem_range.1 ht), zero_mul]
  have := g.first_row hn hi.pos hi.red hi.lov hy0 (v := fun c => ∑ t ∈ Finset.range n, y t * s.M t c) fun c _ => rfl
  unfold dotZ at this
  rw [Finset.sum_range, Finset.sum_range] at this
  simp only [hv, sq]
  exact this

/-- the returned indices are those of the rows of squared norm at most `B`, each once, by increasing norm -/
theorem C75_lll_short_rows {fuel n : ℕ} {M : ℕ → ℕ → ℤ} {B : ℤ} {M' U : ℕ → ℕ → ℤ} {l : List ℕ} (h : lllReduce fuel n M B = some (M', U, l)) :
    (∀ i, i ∈ l ↔ i < n ∧ ∑ c : Fin n, M' i c ^ 2 ≤ B) ∧ l.Nodup ∧ l.Pairwise fun i j => ∑ c : Fin n, M' i c ^ 2 ≤ ∑ c : Fin n, M' j c ^ 2 := by
  unfold lllReduce at h
  rw [Option.map_eq_some_iff] at h
  obtain ⟨s, _, h2⟩ := h
  cases h2
  have hd : ∀ i, dotZ n (s.M i) (s.M i) = ∑ c : Fin n, s.M i c ^ 2 := fun i => by
    unfold dotZ
    rw [Finset.sum_range]
    exact Finset.sum_congr rfl fun c _ => (sq _).symm
  have hp := List.perm_insertionSort (fun a b => dotZ n (s.M a) (s.M a) ≤ dotZ n (s.M b) (s.M b)) ((List.range n).filter fun i => decide (dotZ n (s.M i) (s.M i) ≤ B))
  refine ⟨fun i => ?_, ?_, ?_⟩
  · unfold shortRows
    rw [hp.mem_iff, List.mem_filter, List.mem_range, decide_eq_true_eq, hd]
  · exact hp.nodup_iff.2 (List.nodup_range.filter _)
  · have : IsTrans ℕ fun a b => dotZ n (s.M a) (s.M a) ≤ dotZ n (s.M b) (s.M b) := ⟨fun _ _ _ => le_trans⟩
    have : Std.Total fun a b : ℕ => dotZ n (s.M a) (s.M a) ≤ dotZ n (s.M b) (s.M b) := ⟨fun _ _ => le_total _ _⟩
    refine (List.pairwise_insertionSort (fun a b => dotZ n (s.M a) (s.M a) ≤ dotZ n (s.M b) (s.M b)) _).imp ?_
    intro a b hab
    rw [← hd, ← hd]
    exact hab

/-- the documented precondition (a square integer matrix) is not enough: for the singular matrix `diag(1, 0)` the loop never ends -/
theorem C75_lll_singular_loops (B : ℤ) : ∀ fuel, lllReduce fuel 2 (fun i j => if i = 0 ∧ j = 0 then 1 else 0) B = none := by
  have key : ∀ fuel s, s.mu 1 0 = 0 → s.mu 0 0 = 0 → s.B 0 = 1 → s.B 1 = 0 → lllLoop 2 fuel 1 s = none := by
    intro fuel
    induction fuel with
    | zero => intros; rfl
    | succ fuel ih =>
      intro s h1 h0 h2 h3
      have e : sizeRed 1 0 s = s := by
        unfold sizeRed
        have : roundQ (s.mu 1 0) = 0 := by rw [h1]; decide +kernel
        simp only [this, if_true]
      unfold lllLoop
      rw [if_pos (by omega)]
      simp only [Nat.sub_self, e]
      have hl : ¬ lovasz s 1 = true := by
        unfold lovasz
        rw [decide_eq_true_eq, Nat.sub_self, h1, h2, h3]
        norm_num
      rw [if_neg hl]
      have hB : ¬ (s.B 1 + s.mu 1 0 * s.mu 1 0 * s.B 0 ≠ 0) := by rw [h1, h3]; simp
      have f : swapStep 2 1 s = ⟨swapRows s.M 1 0, swapRows s.U 1 0, set2 (swapRows s.mu 1 0) 1 0 0, s.B⟩ := by
        unfold swapStep
        simp only [Nat.sub_self, if_neg hB, LSt.mk.injEq, true_and]
        refine ⟨?_, trivial⟩
        funext a b
        rw [if_neg (by omega)]
      rw [f]
      refine ih _ ?_ ?_ h2 h3
      · rfl
      · show s.mu 1 0 = 0
        exact h1
  intro fuel
  unfold lllReduce
  rw [key]
  · rfl
  all_goals decide +kernel

/-! ## C76 -/

/-- `__cld_polys`, one polynomial: `c·h ≡ f·h'` modulo `m`, coefficients in the symmetric range; for a monic divisor `h` of `f` modulo `m` the assertion on the remainder holds -/
theorem C76_cld_poly {m : ℤ} (hm : 1 < m) {f h : UPoly ℤ} {F H : ℤ[X]} (hf : Is f F) (hh : Is h H) (hH : H.Monic) :
    (∀ c, cldPoly m f h = some c → ∃ K, Is c K ∧ C m ∣ H * K - F * Polynomial.derivative H ∧ ∀ i, -m < 2 * K.coeff i ∧ 2 * K.coeff i ≤ m) ∧
      ((∃ Q, C m ∣ H * Q - F) → cldPoly m f h ≠ none) := cldPoly_spec hm hf hh hH

/-- one polynomial for each factor, in order -/
theorem C76_cld_polys {m : ℤ} {f : UPoly ℤ} {hs cs : List (UPoly ℤ)} (h : cldPolys m f hs = some cs) : List.Forall₂ (fun g c => cldPoly m f g = some c) hs cs := by
  induction hs generalizing cs with
  | nil => cases h; exact .nil
  | cons g gs ih =>
    unfold cldPolys at h
    rw [Option.bind_eq_some_iff] at h
    obtain ⟨c, h1, h⟩ := h
    rw [Option.map_eq_some_iff] at h
    obtain ⟨r, h2, rfl⟩ := h
    exact .cons h1 (ih h2)

/-! ## C46, C63 with the lattice -/

/-- factorization of a primitive polynomial of degree at least 2 (`__factor_squarefree_primitive_ZZ`) with the lattice reduction: it returns once a prime is selected (the lattice reduction ends, no assertion
fails) -/
theorem C46_factor_lattice_returns {fuel : Nat} {ps : List ({p : Nat // p.Prime} × List Nat)} (hps : ∀ x ∈ ps, x.1.1 < 2 ^ 64 ∧ ∀ c ∈ x.2, c < x.1.1) {ah : Nat} {sort : List (UPoly ℤ) → List (UPoly ℤ)}
    (hsort : ∀ l, (sort l).Perm l) {f : UPoly ℤ} {F : ℤ[X]} (hf : Is f F) (pF : F.IsPrimitive) (hd : 2 ≤ F.natDegree) (hW : F.natDegree + 1 < 2 ^ 64) (h : selectLoop fuel f ps 0 none ≠ none) :
    ∃ lf0, ∀ lf, lf0 ≤ lf → factorSqfPrimL fuel lf ps ah sort f ≠ none := factorSqfPrimL_total hps hsort hf pF hd hW h

/-- the product of its factors is `f` up to sign; they are primitive of positive degree -/
theorem C46_factor_lattice_product {fuel lf : Nat} {ps : List ({p : Nat // p.Prime} × List Nat)} (hps : ∀ x ∈ ps, x.1.1 < 2 ^ 64 ∧ ∀ c ∈ x.2, c < x.1.1) {ah : Nat} {sort : List (UPoly ℤ) → List (UPoly ℤ)}
    (hsort : ∀ l, (sort l).Perm l) {f : UPoly ℤ} {F : ℤ[X]} (hf : Is f F) (pF : F.IsPrimitive) (hd : 2 ≤ F.natDegree) (hW : F.natDegree + 1 < 2 ^ 64) {res : List (UPoly ℤ)}
    (h : factorSqfPrimL fuel lf ps ah sort f = some res) : ∃ Rs, List.Forall₂ Is res Rs ∧ (Rs.prod = F ∨ Rs.prod = -F) ∧ ∀ R ∈ Rs, R.IsPrimitive ∧ 0 < R.natDegree := by
  obtain ⟨Rs, a, b, c⟩ := factorSqfPrimL_spec hps hsort hf pF hd hW h
  exact ⟨Rs, a, associated_int b, c⟩

/-- the factors are irreducible.  Missing: degrees above 7168 -/
theorem C63_factor_irreducible_lattice_partial {fuel lf : Nat} {ps : List ({p : Nat // p.Prime} × List Nat)} (hps : ∀ x ∈ ps, x.1.1 < 2 ^ 64 ∧ ∀ c ∈ x.2, c < x.1.1) {ah : Nat} {sort : List (UPoly ℤ) → List (UPoly ℤ)}
    (hsort : ∀ l, (sort l).Perm l) {f : UPoly ℤ} {F : ℤ[X]} (hf : Is f F) (pF : F.IsPrimitive) (hd : 2 ≤ F.natDegree) (hD : F.natDegree ≤ 7168) {res : List (UPoly ℤ)}
    (h : factorSqfPrimL fuel lf ps ah sort f = some res) : ∃ Rs, List.Forall₂ Is res Rs ∧ (Rs.prod = F ∨ Rs.prod = -F) ∧ ∀ R ∈ Rs, Irreducible R := by
  obtain ⟨Rs, a, b, _, d⟩ := factorSqfPrimL_irr hps hsort hf pF hd hD h
  exact ⟨Rs, a, associated_int b, d⟩

/-- the lattice does not group factors: in the first round (only the scaled unit matrix) every candidate is a single modular factor, because every row of the reduced matrix counts as short -/
theorem C63_lattice_first_round {lf : ℕ} {m : ℤ} {f : UPoly ℤ} {T : List (UPoly ℤ)} (hr : 2 ≤ T.length) {x : (ℕ → ℕ → ℤ) × ℕ × List (List ℤ)} (h : latRound lf m 0 f T (initM T.length) 0 = some x) :
    candidates x.2.2 T.length = (List.range T.length).map fun j => [j] :=
  (latRound_spec hr (by omega) (by simpa [sc] using lat_init T.length) h).2.2

/-! non-vacuity -/
section
def lllEx : ℕ → ℕ → ℤ := fun i j => ([[1, 1, 1], [-1, 0, 2], [3, 5, 6]].getD i []).getD j 0
example : (mat 3 lllEx).det ≠ 0 := by decide +kernel
example : (lllReduce 20 3 lllEx 3).map (fun r => ((List.range 3).map fun i => (List.range 3).map (r.1 i), (List.range 3).map fun i => (List.range 3).map (r.2.1 i), r.2.2)) =
    some ([[0, 1, 0], [1, 0, 1], [-2, 0, 1]], [[-4, -1, 1], [5, 1, -1], [-5, 0, 1]], [0, 1]) := by decide +kernel
/-- `x⁴ + 1 ≡ (x² + 2)(x² + 3)` modulo 5 -/
example : cldPolys 5 [(4, 1), (0, 1)] [[(2, 1), (0, 2)], [(2, 1), (0, 3)]] = some [[(3, 2), (1, 1)], [(3, 2), (1, -1)]] := by decide +kernel
/-- `x⁴ + 4 = (x² + 2x + 2)(x² − 2x + 2)`, a run with the lattice -/
example : factorSqfPrimL 20 30 [(⟨5, Nat.prime_five⟩, [1, 2, 3, 4, 0, 1, 3, 2, 1, 4, 2, 2, 3]), (⟨7, Nat.prime_seven⟩, [1, 2, 3, 4, 0, 1, 3, 2, 1, 4, 2, 2, 3]), (⟨3, Nat.prime_three⟩, [1, 2, 0, 1, 2, 1, 1, 2, 0])] 1 id
    [(4, 1), (0, 4)] = some [[(2, 1), (1, -2), (0, 2)], [(2, 1), (1, 2), (0, 2)]] := by decide +kernel
end

end CLPoly
