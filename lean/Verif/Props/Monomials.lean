import Verif.Mono.Ops

/-!
# Properties C12–C14: variable orders, monomial orders, monomial arithmetic

`Mono.Valid vc m`: normal monomial for the variable order `vc`; `Mono.expo m`: its exponent vector
(`Var →₀ ℕ`).  The variable order is any strict total order; the three orders of the library are shown to be such.
-/

namespace CLPoly
open Mono

/-! ## C12 -/

/-- the default, univariate-priority and custom variable orders are strict total orders, for all parameters -/
theorem C12_variable_orders (v : Var) (l : List Var) :
    (∀ vc ∈ [varLess, varUni v, varCustom l],
      (∀ a, vc a a = false) ∧ (∀ a b c, vc a b = true → vc b c = true → vc a c = true) ∧
      (∀ a b, a ≠ b → vc a b = true ∨ vc b a = true)) := by
  intro vc h
  have : VarOrd vc := by
    simp only [List.mem_cons, List.not_mem_nil, or_false] at h
    rcases h with rfl | rfl | rfl
    · exact varLess_ord
    · exact varUni_ord v
    · exact varCustom_ord l
  exact ⟨fun a => this.irrefl a trivial, fun a b c => this.trans a b c trivial trivial trivial,
    fun a b => this.total a b trivial trivial⟩

/-- the univariate-priority order puts its variable before all others and orders the others by serial number -/
theorem C12_univariate_order (v : Var) :
    (∀ u, u ≠ v → varUni v v u = true) ∧ ∀ a b, a ≠ v → b ≠ v → (varUni v a b = true ↔ a < b) := by
  refine ⟨fun u hu => by simp [varUni, hu], fun a b ha hb => by simp [varUni, ha, hb]⟩

theorem customMap_eq (l : List Var) (hl : l.Nodup) (i : Nat) (hi : i < l.length) : customMap l l[i] = some (i + 1) := by
  unfold customMap
  have hmem : (l[i], i) ∈ l.zipIdx.reverse := by
    rw [List.mem_reverse, List.mem_zipIdx_iff_getElem?]; simp
  cases hf : l.zipIdx.reverse.find? fun p => p.1 = l[i] with
  | none =>
    have := List.find?_eq_none.1 hf _ hmem
    simp at this
  | some p =>
    have h1 := List.mem_of_find?_eq_some hf
    have h2 : p.1 = l[i] := by simpa using List.find?_some hf
    rw [List.mem_reverse, List.mem_zipIdx_iff_getElem?] at h1
    obtain ⟨h3, h4⟩ := List.getElem?_eq_some_iff.1 h1
    have : p.2 = i := (List.Nodup.getElem_inj_iff hl).1 (h4.trans h2)
    simp [this]

theorem customMap_none (l : List Var) (v : Var) (h : v ∉ l) : customMap l v = none := by
  unfold customMap
  rw [Option.map_eq_none_iff, List.find?_eq_none]
  intro p hp
  rw [List.mem_reverse, List.mem_zipIdx_iff_getElem?] at hp
  have := List.mem_of_getElem? hp
  simp only [decide_eq_true_eq]
  rintro rfl
  exact h this

theorem eraseDups_of_nodup {l : List Var} (hl : l.Nodup) : l.eraseDups = l := by
  induction l with
  | nil => rfl
  | cons a l ih =>
    rw [List.nodup_cons] at hl
    rw [List.eraseDups_cons, List.filter_eq_self.2, ih hl.2]
    intro b hb
    simp only [Bool.not_eq_true', beq_eq_false_iff_ne]
    rintro rfl
    exact hl.1 hb

/-- a custom order built from a duplicate-free list: listed variables in list order, before all unlisted ones, which
are ordered by serial number -/
theorem C12_custom_order (l : List Var) (hl : l.Nodup) :
    (∀ i j (hi : i < l.length) (hj : j < l.length), varCustom l l[i] l[j] = true ↔ i < j) ∧
    (∀ i (hi : i < l.length), ∀ u, u ∉ l → varCustom l l[i] u = true) ∧
    (∀ a b, a ∉ l → b ∉ l → (varCustom l a b = true ↔ a < b)) := by
  have h1 : ∀ i (hi : i < l.length), customPos l l[i] = i + 1 := fun i hi => by
    unfold customPos; rw [customMap_eq l hl i hi]; rfl
  have h2 : ∀ u, u ∉ l → customPos l u = l.length + 1 := fun u hu => by
    unfold customPos; rw [customMap_none l u hu, eraseDups_of_nodup hl]; rfl
  refine ⟨fun i j hi hj => ?_, fun i hi u hu => ?_, fun a b ha hb => ?_⟩
  · simp only [varCustom, h1 i hi, h1 j hj, decide_eq_true_eq]
    constructor
    · rintro (h | ⟨h, h'⟩)
      · omega
      · have : i = j := by omega
        subst this
        exact absurd h' (lt_irrefl _)
    · intro h; left; omega
  · simp only [varCustom, h1 i hi, h2 u hu, decide_eq_true_eq]; left; omega
  · simp only [varCustom, h2 a ha, h2 b hb, decide_eq_true_eq]
    constructor
    · rintro (h | ⟨_, h⟩)
      · omega
      · exact h
    · exact fun h => .inr (by simpa using h)

/-- lex is the lexicographic order of exponent vectors, the smallest variable (in `vc`) being the most significant -/
theorem C12_lex_spec (vc : Var → Var → Bool) (ho : VarOrd vc) (a b : Mono) (ha : Valid vc a) (hb : Valid vc b) :
    lexGt vc a b = true ↔ ∃ v, expo b v < expo a v ∧ ∀ u, vc u v = true → expo a u = expo b u := by
  rw [lexGt, pvComp_iff ho ha.sorted hb.sorted ha.pos hb.pos]
  refine exists_congr fun v => ?_
  rw [← ha.expo_eq, ← hb.expo_eq, Nat.cast_lt]
  refine and_congr_right fun _ => forall_congr' fun u => forall_congr' fun _ => ?_
  rw [← ha.expo_eq, ← hb.expo_eq, Nat.cast_inj, eq_comm]

/-- the cached degree is the total degree -/
theorem C12_degree (vc : Var → Var → Bool) (a : Mono) (ha : Valid vc a) : a.deg = ((expo a).sum fun _ e => e : ℕ) := by
  rw [ha.deg]
  unfold expo
  have hp := ha.pos
  generalize a.data = d at hp
  induction d with
  | nil => rfl
  | cons x d ih =>
    rw [List.map_cons, List.sum_cons, ih fun y hy => hp y (List.mem_cons_of_mem _ hy), List.map_cons, List.sum_cons,
      Finsupp.sum_add_index' (fun _ => rfl) (fun _ _ _ => rfl), Finsupp.sum_single_index rfl]
    have := hp x (by simp)
    push_cast
    omega

/-- grlex compares total degrees first and breaks ties by lex -/
theorem C12_grlex_spec (vc : Var → Var → Bool) (ho : VarOrd vc) (a b : Mono) (ha : Valid vc a) (hb : Valid vc b) :
    grlexGt vc a b = true ↔ (expo b).sum (fun _ e => e) < (expo a).sum (fun _ e => e) ∨
      ((expo b).sum (fun _ e => e) = (expo a).sum (fun _ e => e) ∧
        ∃ v, expo b v < expo a v ∧ ∀ u, vc u v = true → expo a u = expo b u) := by
  rw [← C12_lex_spec vc ho a b ha hb, lexGt, pvComp_iff ho ha.sorted hb.sorted ha.pos hb.pos, grlexGt_iff ho ha hb,
    C12_degree vc a ha, C12_degree vc b hb]
  norm_cast
  tauto

/-- both orders are strict total orders on normal monomials -/
theorem C12_monomial_orders (vc : Var → Var → Bool) (ho : VarOrd vc) :
    ∀ mc ∈ [lexGt vc, grlexGt vc],
      (∀ a, Valid vc a → mc a a = false) ∧
      (∀ a b c, Valid vc a → Valid vc b → Valid vc c → mc a b = true → mc b c = true → mc a c = true) ∧
      (∀ a b, Valid vc a → Valid vc b → expo a ≠ expo b → mc a b = true ∨ mc b a = true) := by
  intro mc h
  have : Lawful (Valid vc) mc := by
    simp only [List.mem_cons, List.not_mem_nil, or_false] at h
    rcases h with rfl | rfl
    · exact (lex_ord ho).lawful
    · exact (grlex_ord ho).lawful
  exact ⟨this.irrefl, this.trans, fun a b ha hb h => this.total a b ha hb fun e => h (by rw [e])⟩

/-- `==` of monomials and the hash-relevant data decide equality of exponent vectors -/
theorem C12_monomial_eq (vc : Var → Var → Bool) (ho : VarOrd vc) (a b : Mono) (ha : Valid vc a) (hb : Valid vc b) :
    beq a b = true ↔ expo a = expo b := by
  rw [beq_iff]
  exact ⟨fun h => by rw [h], expo_inj ho ha hb⟩

/-! ## C13 -/

theorem C13_multiplicative (vc : Var → Var → Bool) (ho : VarOrd vc) :
    ∀ mc ∈ [lexGt vc, grlexGt vc], ∀ a b c, Valid vc a → Valid vc b → Valid vc c →
      (mc (mul vc c a) (mul vc c b) = true ↔ mc a b = true) := by
  intro mc h a b c ha hb hc
  have M : MonoOrd vc mc := by
    simp only [List.mem_cons, List.not_mem_nil, or_false] at h
    rcases h with rfl | rfl
    · exact lex_ord ho
    · exact grlex_ord ho
  rw [mul_comm' ho hc ha, mul_comm' ho hc hb]
  let V := varsOf a ∪ varsOf b ∪ varsOf c
  have S := monoSys (R := ℤ) M V
  exact S.mono_iff a b c (validIn_varsOf ha (Finset.subset_union_left.trans Finset.subset_union_left))
    (validIn_varsOf hb (Finset.subset_union_right.trans Finset.subset_union_left))
    (validIn_varsOf hc Finset.subset_union_right)

theorem C13_one_least (vc : Var → Var → Bool) (ho : VarOrd vc) :
    ∀ mc ∈ [lexGt vc, grlexGt vc], ∀ a, Valid vc a → a ≠ one → mc a one = true := by
  intro mc h a ha hne
  have M : MonoOrd vc mc := by
    simp only [List.mem_cons, List.not_mem_nil, or_false] at h
    rcases h with rfl | rfl
    · exact lex_ord ho
    · exact grlex_ord ho
  refine (M.lawful.total a one ha one_valid hne).resolve_right ?_
  rw [M.dom one a one_valid ha fun v => E_nonneg ha.pos v]
  exact Bool.false_ne_true

/-- no infinite strictly decreasing sequence of monomials over finitely many variables -/
theorem C13_no_infinite_descent (vc : Var → Var → Bool) (ho : VarOrd vc) :
    ∀ mc ∈ [lexGt vc, grlexGt vc], ∀ V : Finset Var, ∀ f : ℕ → Mono,
      (∀ n, Valid vc (f n)) → (∀ n, (expo (f n)).support ⊆ V) → ¬ ∀ n, mc (f n) (f (n + 1)) = true := by
  intro mc h V f hv hV hd
  have M : MonoOrd vc mc := by
    simp only [List.mem_cons, List.not_mem_nil, or_false] at h
    rcases h with rfl | rfl
    · exact lex_ord ho
    · exact grlex_ord ho
  have hVi : ∀ n, ValidIn vc V (f n) := fun n => ⟨hv n, fun x hx => hV n (by
    rw [Finsupp.mem_support_iff]
    intro e
    have h1 := (hv n).expo_eq x.1
    rw [e, E_mem ho (hv n).sorted hx] at h1
    have := (hv n).pos x hx
    simp at h1
    omega)⟩
  have := M.wf V
  rw [wellFounded_iff_isEmpty_descending_chain] at this
  exact this.elim' ⟨fun n => ⟨f n, hVi n⟩, hd⟩

/-! ## C14 -/

theorem C14_mul (vc : Var → Var → Bool) (ho : VarOrd vc) (a b : Mono) (ha : Valid vc a) (hb : Valid vc b) :
    Valid vc (mul vc a b) ∧ expo (mul vc a b) = expo a + expo b :=
  ⟨mul_valid ho ha hb, expo_mul ho ha hb⟩

/-- `is_divexact` succeeds exactly on divisible pairs and yields the quotient -/
theorem C14_is_divexact (vc : Var → Var → Bool) (ho : VarOrd vc) (a b : Mono) (ha : Valid vc a) (hb : Valid vc b) :
    ((divExact vc a b).isSome ↔ ∀ v, expo b v ≤ expo a v) ∧
    ∀ q, divExact vc a b = some q → Valid vc q ∧ expo q = expo a - expo b := by
  let V := varsOf a ∪ varsOf b
  have hA : ValidIn vc V a := validIn_varsOf ha Finset.subset_union_left
  have hB : ValidIn vc V b := validIn_varsOf hb Finset.subset_union_right
  have key : ∀ q, divExact vc a b = some q → Valid vc q ∧ expo a = expo q + expo b := fun q hq => by
    obtain ⟨h1, h2⟩ := (divExact_iff ho hA hB).1 hq
    exact ⟨h1.1, by rw [← h2, expo_mul ho h1.1 hb]⟩
  refine ⟨⟨fun h v => ?_, fun h => ?_⟩, fun q hq => ?_⟩
  · obtain ⟨q, hq⟩ := Option.isSome_iff_exists.1 h
    rw [(key q hq).2, Finsupp.add_apply]
    exact Nat.le_add_left _ _
  · have hc := pvSub_canon (comp := vc) ho (keysTrue a.data) (keysTrue b.data) ha.canon hb.canon
    have hp : ∀ x ∈ pvSub vc a.data b.data, 0 < x.2 := pos_of_E ho hc fun v => by
      rw [E_pvSub]
      show 0 ≤ E a.data v - E b.data v
      rw [← ha.expo_eq, ← hb.expo_eq]
      have := h v
      omega
    have hd : ¬ a.deg - b.deg < 0 := by
      have := deg_le_of_E hb ha fun v => by rw [← ha.expo_eq, ← hb.expo_eq]; exact_mod_cast h v
      omega
    unfold divExact
    simp only
    rw [if_neg hd, if_neg]
    · rfl
    · simp only [List.any_eq_true, decide_eq_true_eq, not_exists, not_and]
      intro x hx
      have := hp x hx
      omega
  · obtain ⟨h1, h2⟩ := key q hq
    exact ⟨h1, by rw [h2, add_tsub_cancel_right]⟩

/-- `/` gives the quotient when the divisor divides; in general it subtracts exponents, which may become negative -/
theorem C14_div (vc : Var → Var → Bool) (ho : VarOrd vc) (a b : Mono) (ha : Valid vc a) (hb : Valid vc b)
    (h : ∀ v, expo b v ≤ expo a v) : Valid vc (div vc a b) ∧ expo (div vc a b) = expo a - expo b := by
  have h1 := (C14_is_divexact vc ho a b ha hb)
  obtain ⟨q, hq⟩ := Option.isSome_iff_exists.1 (h1.1.2 h)
  have : div vc a b = q := by
    unfold divExact at hq
    simp only at hq
    split at hq
    · exact absurd hq (by simp)
    · split at hq
      · exact absurd hq (by simp)
      · exact Option.some.inj hq
  rw [this]
  exact h1.2 q hq

theorem C14_lcm (vc : Var → Var → Bool) (ho : VarOrd vc) (a b : Mono) (ha : Valid vc a) (hb : Valid vc b) :
    Valid vc (lcm vc a b) ∧ ∀ v, expo (lcm vc a b) v = max (expo a v) (expo b v) := by
  obtain ⟨h1, h2⟩ := lcm_valid ho ha hb
  refine ⟨h1, fun v => ?_⟩
  have := h2 v
  rw [← h1.expo_eq, ← ha.expo_eq, ← hb.expo_eq] at this
  exact_mod_cast this

theorem C14_gcd (vc : Var → Var → Bool) (ho : VarOrd vc) (a b : Mono) (ha : Valid vc a) (hb : Valid vc b) :
    Valid vc (gcd vc a b) ∧ ∀ v, expo (gcd vc a b) v = min (expo a v) (expo b v) := by
  obtain ⟨h1, h2⟩ := gcd_valid ho ha hb
  refine ⟨h1, fun v => ?_⟩
  have := h2 v
  rw [← h1.expo_eq, ← ha.expo_eq, ← hb.expo_eq] at this
  exact_mod_cast this

theorem C14_pow (vc : Var → Var → Bool) (a : Mono) (ha : Valid vc a) (n : ℕ) :
    Valid vc (pow a n) ∧ expo (pow a n) = n • expo a := by
  obtain ⟨h1, h2⟩ := pow_valid ha (n := n) (by omega)
  refine ⟨h1, ?_⟩
  ext v
  have := h2 v
  rw [← h1.expo_eq, ← ha.expo_eq] at this
  rw [Finsupp.smul_apply, smul_eq_mul, mul_comm]
  exact_mod_cast this

/-- `m.deg(v)` is the exponent of `v` -/
theorem C14_deg_in (vc : Var → Var → Bool) (ho : VarOrd vc) (a : Mono) (ha : Valid vc a) (v : Var) :
    degIn a v = expo a v := by rw [degIn_eq ho ha.sorted, ha.expo_eq]

/-- `normalization()` of any list of variables with non-negative exponents: a normal monomial with the summed exponents -/
theorem C14_normalization (vc : Var → Var → Bool) (ho : VarOrd vc) (d : List (Var × ℕ)) :
    Valid vc (normalize vc (d.map fun x => (x.1, (x.2 : ℤ)))) ∧
    expo (normalize vc (d.map fun x => (x.1, (x.2 : ℤ)))) = (d.map fun x => Finsupp.single x.1 x.2).sum := by
  have h0 : ∀ x ∈ d.map fun x => (x.1, (x.2 : ℤ)), 0 ≤ x.2 := by
    intro x hx
    obtain ⟨y, _, rfl⟩ := List.mem_map.1 hx
    exact Int.natCast_nonneg _
  have hv := normalize_valid ho _ h0
  refine ⟨hv, ?_⟩
  ext v
  have := hv.expo_eq v
  rw [E_normalize] at this
  have h2 : E (d.map fun x => (x.1, (x.2 : ℤ))) v = ((d.map fun x => Finsupp.single x.1 x.2).sum v : ℕ) := by
    clear this hv h0
    induction d with
    | nil => rfl
    | cons x d ih =>
      rw [List.map_cons, E_cons, ih, List.map_cons, List.sum_cons, Finsupp.add_apply, Finsupp.single_apply]
      push_cast
      congr 1
  rw [h2] at this
  exact_mod_cast this

/-! ## concrete cases -/

def exA : Mono := ⟨[(1, 2), (3, 1)], 3⟩
def exB : Mono := ⟨[(1, 2), (2, 4)], 6⟩
example : Valid varLess exA := ⟨by decide, by decide, by decide⟩
example : Valid varLess exB := ⟨by decide, by decide, by decide⟩
/-- the two orders differ on a concrete pair with two priorities: `x1^3` and `x1^2*x2^4` -/
example : lexGt varLess (⟨[(1, 3)], 3⟩ : Mono) exB = true ∧ grlexGt varLess exB (⟨[(1, 3)], 3⟩ : Mono) = true := by decide
example : lexGt (varUni 2) (⟨[(2, 4), (1, 2)], 6⟩ : Mono) ⟨[(1, 3)], 3⟩ = true := by decide
example : lcm varLess exA exB = ⟨[(1, 2), (2, 4), (3, 1)], 7⟩ := by
  simp [lcm, exA, exB, lcmData, varLess, sumDeg]
example : gcd varLess exA exB = ⟨[(1, 2)], 2⟩ := by simp [gcd, exA, exB, gcdData, varLess, sumDeg]
example : divExact varLess exB (⟨[(1, 1), (2, 4)], 5⟩ : Mono) = some ⟨[(1, 1)], 1⟩ := by
  simp [divExact, exB, pvSub, varLess, pvNeg]
example : divExact varLess exB exA = none := by simp [divExact, exA, exB, pvSub, varLess, pvNeg]

end CLPoly
