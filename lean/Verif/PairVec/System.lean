import Verif.PairVec.Div

/-! # Multiplication and division over a monomial system

`MonoSys S comp mul divx T co` collects what the representation of monomials must provide; it is shown for
the concrete monomials of the library in `Mono/`.  `S` is the set of valid monomials. -/

namespace CLPoly
open VHC Function

variable {K R A : Type*} [DecidableEq K] [Inhabited K] [DecidableEq R] [CommRing R] [CommRing A]
variable {S : K → Prop} {comp : K → K → Bool} {mul : K → K → K} {T : K → R →+ A} {co : K → A → R}
variable {divx : K → K → Option K} {divc : R → R → R × R}
variable {v1 v2 : PV K R}

local instance : Inhabited R := ⟨0⟩

omit [DecidableEq K] [Inhabited K] [DecidableEq R] [CommRing R] in
theorem filterMap_id_of {f : K × R → Option (K × R)} {l : PV K R} (h : ∀ x ∈ l, f x = some x) : l.filterMap f = l := by
  induction l with
  | nil => rfl
  | cons x l ih =>
    rw [List.filterMap_cons, h x (by simp)]
    simp only
    rw [ih fun y hy => h y (List.mem_cons_of_mem _ hy)]

structure MonoSys (S : K → Prop) (comp : K → K → Bool) (mul : K → K → K) (divx : K → K → Option K)
    (T : K → R →+ A) (co : K → A → R) : Prop where
  lawful : Lawful S comp
  wf : WellFounded fun a b : {x // S x} => comp b.1 a.1 = true
  mulS : ∀ a b, S a → S b → S (mul a b)
  comm : ∀ a b, S a → S b → mul a b = mul b a
  mono : ∀ a b c, S a → S b → S c → comp a b = true → comp (mul a c) (mul b c) = true
  div : ∀ m l q, S m → S l → (divx m l = some q ↔ S q ∧ mul q l = m)
  term : ∀ a b, S a → S b → ∀ c d, T (mul a b) (c * d) = T a c * T b d
  sep : Separates S T co

namespace MonoSys
variable (M : MonoSys S comp mul divx T co)
include M

omit [DecidableEq K] [Inhabited K] [DecidableEq R] in
theorem mono' (a b c : K) (ha : S a) (hb : S b) (hc : S c) (h : comp a b = true) :
    comp (mul c a) (mul c b) = true := by
  rw [M.comm c a hc ha, M.comm c b hc hb]; exact M.mono a b c ha hb hc h

omit [DecidableEq K] [Inhabited K] [DecidableEq R] in
theorem mono_iff (a b c : K) (ha : S a) (hb : S b) (hc : S c) :
    comp (mul a c) (mul b c) = true ↔ comp a b = true := by
  refine ⟨fun h => ?_, M.mono a b c ha hb hc⟩
  by_contra hn
  by_cases e : a = b
  · subst e; rw [M.lawful.irrefl _ (M.mulS _ _ ha hc)] at h; exact absurd h (by simp)
  · rcases M.lawful.total a b ha hb e with h1 | h1
    · exact hn h1
    · have h2 := M.mono b a c hb ha hc h1
      have := M.lawful.trans _ _ _ (M.mulS _ _ ha hc) (M.mulS _ _ hb hc) (M.mulS _ _ ha hc) h h2
      rw [M.lawful.irrefl _ (M.mulS _ _ ha hc)] at this; exact absurd this (by simp)

omit [DecidableEq K] [Inhabited K] [DecidableEq R] in
theorem mul_inj (a b c : K) (ha : S a) (hb : S b) (hc : S c) (h : mul a c = mul b c) : a = b := by
  by_contra e
  have hi := M.lawful.irrefl _ (M.mulS _ _ ha hc)
  rcases M.lawful.total a b ha hb e with h1 | h1
  · have := M.mono a b c ha hb hc h1
    rw [← h, hi] at this; exact absurd this (by simp)
  · have := M.mono b a c hb ha hc h1
    rw [← h, hi] at this; exact absurd this (by simp)

omit [DecidableEq K] [Inhabited K] [DecidableEq R] in
theorem div_mul (q l : K) (hq : S q) (hl : S l) : divx (mul q l) l = some q :=
  (M.div _ _ _ (M.mulS _ _ hq hl) hl).2 ⟨hq, rfl⟩

theorem mulCompat (h1 : KeysIn S v1) (h2 : KeysIn S v2) : MulCompat S comp mul T v1 v2 where
  valid x hx y hy := M.mulS _ _ (h1 x hx) (h2 y hy)
  monoR x hx y hy y' hy' h := M.mono' _ _ _ (h2 y hy) (h2 y' hy') (h1 x hx) h
  monoL x hx x' hx' y hy h := M.mono _ _ _ (h1 x hx) (h1 x' hx') (h2 y hy) h
  comm x hx y hy := M.comm _ _ (h1 x hx) (h2 y hy)
  term x hx y hy := M.term _ _ (h1 x hx) (h2 y hy)

theorem pvMul_spec [NoZeroDivisors R] (h1 : KeysIn S v1) (h2 : KeysIn S v2) (c1 : Canon comp v1)
    (c2 : Canon comp v2) :
    ∃ out, pvMul mul comp v1 v2 = some out ∧ den T out = den T v1 * den T v2 ∧ Canon comp out ∧ KeysIn S out :=
  CLPoly.pvMul_spec M.lawful (M.mulCompat h1 h2) c1 c2

theorem divCompat (h2 : KeysIn S v2) (hv2 : v2 ≠ []) : DivCompat S comp mul divx T v2 := by
  have hl : S (at_ v2 0).1 := h2 _ (at_mem (List.length_pos_iff.2 hv2))
  have hq : ∀ m m1, S m → divx m (at_ v2 0).1 = some m1 → S m1 ∧ mul m1 (at_ v2 0).1 = m :=
    fun m m1 hm h => (M.div m _ m1 hm hl).1 h
  exact {
    exact := fun m m1 hm h => (hq m m1 hm h).2
    valid := fun m m1 hm h y hy => M.mulS _ _ (hq m m1 hm h).1 (h2 y hy)
    monoT := fun m m1 hm h y hy y' hy' hc => M.mono' _ _ _ (h2 y hy) (h2 y' hy') (hq m m1 hm h).1 hc
    monoQ := fun m m1 m' m1' hm hm' h h' hc y hy => by
      obtain ⟨a, rfl⟩ := hq m m1 hm h
      obtain ⟨b, rfl⟩ := hq m' m1' hm' h'
      exact M.mono _ _ _ a b (h2 y hy) ((M.mono_iff _ _ _ a b hl).1 hc)
    term := fun m m1 hm h y hy => M.term _ _ (hq m m1 hm h).1 (h2 y hy) }

theorem quot_canon {L : Type*} [LinearOrder L] {r : K → L} {Q : PV K R} {b : WithTop L} (h2 : KeysIn S v2)
    (hv2 : v2 ≠ []) (hQ : QuotOK S comp r divx v2 Q b) : KeysIn S Q ∧ Canon comp Q := by
  have hl : S (at_ v2 0).1 := h2 _ (at_mem (List.length_pos_iff.2 hv2))
  refine ⟨fun x hx => ?_, hQ.dec.imp ?_, fun x hx => ?_⟩
  · obtain ⟨m, a, b, _⟩ := hQ.each x hx
    exact ((M.div _ _ _ a hl).1 b).1
  · rintro x y ⟨m, m', a1, a2, a3, a4, a5⟩
    obtain ⟨s1, rfl⟩ := (M.div _ _ _ a1 hl).1 a3
    obtain ⟨s2, rfl⟩ := (M.div _ _ _ a2 hl).1 a4
    exact (M.mono_iff _ _ _ s1 s2 hl).1 a5
  · obtain ⟨m, a, b, _, d⟩ := hQ.each x hx
    exact d

/-- the leading coefficient of a product -/
theorem co_lead (x : K × R) (d : PV K R) (y : K × R) (w : PV K R) (h1 : KeysIn S (x :: d)) (h2 : KeysIn S (y :: w))
    (c1 : Canon comp (x :: d)) (c2 : Canon comp (y :: w)) :
    co (mul x.1 y.1) (den T (x :: d) * den T (y :: w)) = x.2 * y.2 := by
  obtain ⟨hx, hd⟩ := KeysIn.cons.1 h1
  obtain ⟨hy, hw⟩ := KeysIn.cons.1 h2
  have hS := M.mulS _ _ hx hy
  have e1 := (List.pairwise_cons.1 c1.1).1
  have e2 := (List.pairwise_cons.1 c2.1).1
  have row : ∀ (z : K × R), S z.1 → (z = x ∨ comp x.1 z.1 = true) → ∀ w' : PV K R, (∀ u ∈ w', u ∈ w) →
      co (mul x.1 y.1) (T z.1 z.2 * den T w') = 0 := by
    intro z hz hzx w'
    induction w' with
    | nil => intro _; rw [den_nil, mul_zero, M.sep.zero]
    | cons u w' ih =>
      intro hu
      have hus := hw u (hu u (by simp))
      rw [den_cons, mul_add, M.sep.add, ih (fun v hv => hu v (List.mem_cons_of_mem _ hv)), add_zero,
        ← M.term _ _ hz hus, M.sep.diff _ _ _ hS (M.mulS _ _ hz hus)]
      intro e
      have h1 : comp (mul x.1 y.1) (mul x.1 u.1) = true := M.mono' _ _ _ hy hus hx (e2 u (hu u (by simp)))
      have h2 : comp (mul x.1 y.1) (mul z.1 u.1) = true := by
        rcases hzx with rfl | hzx
        · exact h1
        · exact M.lawful.trans _ _ _ hS (M.mulS _ _ hx hus) (M.mulS _ _ hz hus) h1 (M.mono _ _ _ hx hz hus hzx)
      rw [← e, M.lawful.irrefl _ hS] at h2
      exact absurd h2 (by simp)
  have rows : ∀ d' : PV K R, (∀ u ∈ d', u ∈ d) → co (mul x.1 y.1) (den T d' * den T (y :: w)) = 0 := by
    intro d'
    induction d' with
    | nil => intro _; rw [den_nil, zero_mul, M.sep.zero]
    | cons z d' ih =>
      intro hu
      have hzs := hd z (hu z (by simp))
      have hzx := e1 z (hu z (by simp))
      rw [den_cons, add_mul, M.sep.add, ih (fun v hv => hu v (List.mem_cons_of_mem _ hv)), add_zero, den_cons, mul_add,
        M.sep.add, row z hzs (.inr hzx) w (fun _ h => h), add_zero, ← M.term _ _ hzs hy,
        M.sep.diff _ _ _ hS (M.mulS _ _ hzs hy)]
      intro e
      have h2 := M.mono _ _ _ hx hzs hy hzx
      rw [← e, M.lawful.irrefl _ hS] at h2
      exact absurd h2 (by simp)
  rw [den_cons T x d, add_mul, M.sep.add, rows d (fun _ h => h), add_zero, den_cons, mul_add, M.sep.add,
    row x hx (.inl rfl) w (fun _ h => h), add_zero, ← M.term _ _ hx hy, M.sep.same _ _ hS]

/-- a remainder none of whose terms is a product of the leading term of `v2` and a monomial of `h` or `Q`, but which is a multiple of `v2`,
vanishes -/
theorem rem_zero' [NoZeroDivisors R] {h Q R' : PV K R} {y : K × R} {w : PV K R}
    (kh : KeysIn S h) (kQ : KeysIn S Q) (kR : KeysIn S R') (k2 : KeysIn S (y :: w))
    (ch : Canon comp h) (cQ : Canon comp Q) (cR : Canon comp R') (c2 : Canon comp (y :: w))
    (hR : ∀ x ∈ R', (∀ z ∈ h ++ Q, mul z.1 y.1 ≠ x.1) ∨ ∀ q, x.2 ≠ q * y.2)
    (he : den T h * den T (y :: w) = den T Q * den T (y :: w) + den T R') : Q = h ∧ R' = [] := by
  have kd := pvSub_keysIn (comp := comp) kh kQ
  have cd := pvSub_canon M.lawful kh kQ ch cQ
  have hd := den_pvSub T comp h Q
  have he2 : den T (pvSub comp h Q) * den T (y :: w) = den T R' := by rw [hd, sub_mul, he]; ring
  cases hdd : pvSub comp h Q with
  | nil =>
    rw [hdd] at hd he2
    rw [den_nil] at hd he2
    rw [zero_mul] at he2
    refine ⟨canon_unique M.lawful M.sep kQ kh cQ ch (sub_eq_zero.1 hd.symm).symm, ?_⟩
    exact canon_unique M.lawful M.sep kR KeysIn.nil cR ⟨List.Pairwise.nil, by simp⟩ (by rw [← he2, den_nil])
  | cons x d =>
    exfalso
    rw [hdd] at kd cd he2
    have hl := M.co_lead x d y w kd k2 cd c2
    have hx := (KeysIn.cons.1 kd).1
    have hy := (KeysIn.cons.1 k2).1
    rw [he2, M.sep.coeffSum_eq kR (M.mulS _ _ hx hy)] at hl
    have hne : x.2 * y.2 ≠ 0 := mul_ne_zero (cd.2 x (by simp)) (c2.2 y (by simp))
    obtain ⟨z, hz, hzk⟩ : ∃ z ∈ R', z.1 = mul x.1 y.1 := by
      by_contra hcon
      push Not at hcon
      rw [coeffSum_of_not_mem hcon] at hl
      exact hne hl.symm
    have hzc : coeffSum (mul x.1 y.1) R' = z.2 := by
      have : R'.filter (fun u => u.1 = mul x.1 y.1) = [z] := by
        clear hl he2 he hR
        induction R' with
        | nil => simp at hz
        | cons u R' ih =>
          obtain ⟨s1, s2⟩ := List.pairwise_cons.1 cR.1
          have kk := KeysIn.cons.1 kR
          rcases List.mem_cons.1 hz with rfl | hz
          · rw [List.filter_cons_of_pos (by simpa using hzk), List.filter_eq_nil_iff.2]
            intro v hv
            simp only [decide_eq_true_eq]
            intro e
            have := s1 v hv
            rw [e, hzk, M.lawful.irrefl _ (M.mulS _ _ hx hy)] at this
            exact absurd this (by simp)
          · rw [List.filter_cons_of_neg, ih kk.2 ⟨s2, fun v hv => cR.2 v (List.mem_cons_of_mem _ hv)⟩ hz]
            simp only [decide_eq_true_eq]
            intro e
            have := s1 z hz
            rw [e, hzk, M.lawful.irrefl _ (M.mulS _ _ hx hy)] at this
            exact absurd this (by simp)
      simp [coeffSum, this]
    rw [hzc] at hl
    rcases hR z hz with h1 | h1
    · have hxm : ∃ z' ∈ h ++ Q, z'.1 = x.1 := by
        have hx1 : x ∈ pvSub comp h Q := by rw [hdd]; simp
        rw [pvSub_eq] at hx1
        rcases pvAdd_keys comp h (pvNeg Q) x hx1 with ⟨u, hu, e⟩ | ⟨u, hu, e⟩
        · exact ⟨u, List.mem_append_left _ hu, e⟩
        · obtain ⟨u', hu', rfl⟩ := List.mem_map.1 hu
          exact ⟨u', List.mem_append_right _ hu', e⟩
      obtain ⟨z', hz', e⟩ := hxm
      exact h1 z' hz' (by rw [e, hzk])
    · exact h1 _ hl

/-- the same when no term of the remainder is a multiple of the leading term of `v2` -/
theorem rem_zero [NoZeroDivisors R] {h Q R' : PV K R} {y : K × R} {w : PV K R}
    (kh : KeysIn S h) (kQ : KeysIn S Q) (kR : KeysIn S R') (k2 : KeysIn S (y :: w))
    (ch : Canon comp h) (cQ : Canon comp Q) (cR : Canon comp R') (c2 : Canon comp (y :: w))
    (hR : ∀ x ∈ R', divx x.1 y.1 = none ∨ ∀ q, x.2 ≠ q * y.2)
    (he : den T h * den T (y :: w) = den T Q * den T (y :: w) + den T R') : Q = h ∧ R' = [] := by
  refine M.rem_zero' kh kQ kR k2 ch cQ cR c2 (fun x hx => ?_) he
  rcases hR x hx with h1 | h1
  · left
    intro z hz e
    have hzS : S z.1 := by
      rcases List.mem_append.1 hz with hz | hz
      · exact kh z hz
      · exact kQ z hz
    rw [← e, M.div_mul _ _ hzS (KeysIn.cons.1 k2).1] at h1
    exact absurd h1 (by simp)
  · exact .inr h1

/-- canonical vector times one term -/
theorem map_mul_canon [NoZeroDivisors R] {t : K × R} (ht : S t.1) (ht2 : t.2 ≠ 0) (h1 : KeysIn S v1)
    (c1 : Canon comp v1) :
    KeysIn S (v1.map fun i => (mul i.1 t.1, i.2 * t.2)) ∧ Canon comp (v1.map fun i => (mul i.1 t.1, i.2 * t.2)) ∧
    den T (v1.map fun i => (mul i.1 t.1, i.2 * t.2)) = den T v1 * den T [t] := by
  refine ⟨?_, ⟨?_, ?_⟩, ?_⟩
  · intro x hx
    obtain ⟨y, hy, rfl⟩ := List.mem_map.1 hx
    exact M.mulS _ _ (h1 y hy) ht
  · rw [List.pairwise_map]
    exact c1.1.imp_of_mem fun {a b} ha hb h => M.mono _ _ _ (h1 a ha) (h1 b hb) ht h
  · intro x hx
    obtain ⟨y, hy, rfl⟩ := List.mem_map.1 hx
    exact mul_ne_zero (c1.2 y hy) ht2
  · rw [den_cons, den_nil, add_zero]
    clear c1
    induction v1 with
    | nil => simp
    | cons y l ih =>
      obtain ⟨a, b⟩ := KeysIn.cons.1 h1
      rw [List.map_cons, den_cons, den_cons, add_mul, ih b, M.term _ _ a ht]

/-- **exact division**: if `v1 = h * v2` then `pair_vec_div` returns `h` -/
theorem pvDiv_exact [NoZeroDivisors R] {h : PV K R} (k1 : KeysIn S v1) (k2 : KeysIn S v2) (kh : KeysIn S h)
    (c1 : Canon comp v1) (c2 : Canon comp v2) (ch : Canon comp h) (hv2 : v2 ≠ [])
    (hdiv : ∀ lc : R, lc ≠ 0 → ∀ k, k = (divc k lc).1 * lc + (divc k lc).2)
    (hexact : ∀ lc : R, lc ≠ 0 → ∀ q, divc (q * lc) lc = (q, 0))
    (he : den T v1 = den T h * den T v2) :
    ∃ N, ∀ fuel ≥ N, pvDiv mul divx divc comp fuel v1 v2 = some (some h) := by
  match v2, hv2, k2, c2, he with
  | [t], _, k2, c2, he =>
    refine ⟨0, fun fuel _ => ?_⟩
    have ht := k2 t (by simp)
    have ht2 := c2.2 t (by simp)
    obtain ⟨a, b, c⟩ := M.map_mul_canon ht ht2 kh ch
    have : v1 = h.map fun i => (mul i.1 t.1, i.2 * t.2) := canon_unique M.lawful M.sep k1 a c1 b (by rw [he, c])
    rw [this]
    show some (some (List.filterMap _ _)) = _
    rw [List.filterMap_map]
    congr 2
    refine filterMap_id_of fun x hx => ?_
    simp only [Function.comp]
    rw [M.div_mul _ _ (kh x hx) ht, hexact _ ht2]; rfl
  | y :: y' :: w, _, k2, c2, he =>
    unfold pvDiv
    by_cases h0 : v1 = []
    · refine ⟨0, fun fuel _ => ?_⟩
      simp only [h0, if_true]
      congr 2
      refine (M.rem_zero kh KeysIn.nil KeysIn.nil k2 ch ⟨List.Pairwise.nil, by simp⟩ ⟨List.Pairwise.nil, by simp⟩ c2
        (by simp) ?_).1
      rw [← he, h0]; simp
    · simp only [h0, if_false]
      obtain ⟨L, _, r, hr⟩ := M.lawful.exists_rank
      have hlc : (at_ (y :: y' :: w) 0).2 ≠ 0 := c2.2 _ (at_mem (by simp))
      obtain ⟨N, Q, R', e1, e2, ⟨b, e3⟩, e4, e5⟩ := heapDiv_spec (emit := fun _ k2 => k2) (divc := divc) hr M.wf
        (M.divCompat k2 (by simp)) k1 c1 c2 (by simp) (by
          intro k
          have := hdiv _ hlc k
          split
          · rename_i h0; rw [h0] at this; exact this
          · exact this)
      obtain ⟨kQ, cQ⟩ := M.quot_canon k2 (by simp) e3
      have kR : KeysIn S R' := fun x hx => (e5 x hx).1
      have cR : Canon comp R' := (canon_iff hr kR).2 ⟨e4, fun x hx => by
        rcases (e5 x hx).2 with ⟨_, h⟩ | ⟨k, _, h, h'⟩
        · exact h
        · rw [h']; exact h⟩
      obtain ⟨f1, f2⟩ := M.rem_zero kh kQ kR k2 ch cQ cR c2 (by
        intro x hx
        rcases (e5 x hx).2 with ⟨h, _⟩ | ⟨k, _, h, h'⟩
        · exact .inl h
        · refine .inr fun q hq => h ?_
          have h3 := hdiv _ hlc k
          rw [h'] at hq
          have hq' : (divc k (at_ (y :: y' :: w) 0).2).2 = q * (at_ (y :: y' :: w) 0).2 := hq
          rw [hq', ← add_mul] at h3
          rw [h3, hexact _ hlc]) (by rw [← he, e2])
      refine ⟨N, fun fuel hf => ?_⟩
      rw [e1 fuel hf, f1]; rfl

/-- the one-term quotient, for canonical input -/
theorem oneTerm_quot [NoZeroDivisors R] {t : K × R} (ht : S t.1) (h1 : KeysIn S v1) (c1 : Canon comp v1) :
    let Q := v1.filterMap (oneTermQ divx divc t)
    KeysIn S Q ∧ Canon comp Q := by
  intro Q
  have key : ∀ i ∈ v1, ∀ b, oneTermQ divx divc t i = some b → S b.1 ∧ mul b.1 t.1 = i.1 ∧ b.2 ≠ 0 := by
    intro i hi b hb
    unfold oneTermQ at hb
    split at hb
    · rename_i m hm
      split at hb
      · rename_i hne
        obtain rfl := Option.some.inj hb
        obtain ⟨a, b⟩ := (M.div _ _ _ (h1 i hi) ht).1 hm
        exact ⟨a, b, hne⟩
      · exact absurd hb (by simp)
    · exact absurd hb (by simp)
  refine ⟨?_, ?_, ?_⟩
  · intro x hx
    obtain ⟨i, hi, hb⟩ := List.mem_filterMap.1 hx
    exact (key i hi x hb).1
  · refine List.pairwise_filterMap.2 (c1.1.imp_of_mem fun {a b} ha hb hab x hx y hy => ?_)
    obtain ⟨p1, p2, _⟩ := key a ha x hx
    obtain ⟨q1, q2, _⟩ := key b hb y hy
    rw [← p2, ← q2] at hab
    exact (M.mono_iff _ _ _ p1 q1 ht).1 hab
  · intro x hx
    obtain ⟨i, hi, hb⟩ := List.mem_filterMap.1 hx
    exact (key i hi x hb).2.2

/-- **division with remainder**, any coefficient ring with a division with remainder: the quotient is canonical,
an empty remainder certifies divisibility, and a true divisor is always recognised. -/
theorem pvDivRem_test [NoZeroDivisors R] (k1 : KeysIn S v1) (k2 : KeysIn S v2)
    (c1 : Canon comp v1) (c2 : Canon comp v2) (hv2 : v2 ≠ [])
    (hdiv : ∀ lc : R, lc ≠ 0 → ∀ k, k = (divc k lc).1 * lc + (divc k lc).2)
    (hexact : ∀ lc : R, lc ≠ 0 → ∀ q, divc (q * lc) lc = (q, 0)) :
    ∃ N Q R', (∀ fuel ≥ N, pvDivRem mul divx divc comp fuel v1 v2 = some (some (Q, R'))) ∧
      KeysIn S Q ∧ Canon comp Q ∧ (R' = [] → den T v1 = den T Q * den T v2) ∧
      ∀ h, KeysIn S h → Canon comp h → den T v1 = den T h * den T v2 → Q = h ∧ R' = [] := by
  match v2, hv2, k2, c2 with
  | [t], _, k2, c2 =>
    have ht := k2 t (by simp)
    have ht2 := c2.2 t (by simp)
    obtain ⟨kQ, cQ⟩ := M.oneTerm_quot (divc := divc) ht k1 c1
    refine ⟨0, _, _, fun fuel _ => rfl, kQ, cQ, ?_, ?_⟩
    · intro hR
      have hall : ∀ i ∈ v1, ∃ m, divx i.1 t.1 = some m ∧ (divc i.2 t.2).2 = 0 := by
        intro i hi
        have := List.filterMap_eq_nil_iff.1 hR i hi
        unfold oneTermR at this
        cases hd : divx i.1 t.1 with
        | none => rw [hd] at this; simp at this
        | some m =>
          rw [hd] at this
          refine ⟨m, rfl, ?_⟩
          by_contra hne
          simp [hne] at this
      clear hR kQ cQ
      rw [den_cons, den_nil, add_zero]
      induction v1 with
      | nil => simp
      | cons i v1 ih =>
        obtain ⟨m, hm, hz⟩ := hall i (by simp)
        obtain ⟨kx, kv⟩ := KeysIn.cons.1 k1
        have hk := hdiv _ ht2 i.2
        rw [hz, add_zero] at hk
        obtain ⟨sm, hmul⟩ := (M.div _ _ _ kx ht).1 hm
        have hne : (divc i.2 t.2).1 ≠ 0 := by
          intro h0; rw [h0, zero_mul] at hk; exact c1.2 i (by simp) hk
        rw [List.filterMap_cons]
        simp only [oneTermQ, hm, ne_eq, hne, not_false_eq_true, if_true, den_cons]
        rw [ih kv ⟨(List.pairwise_cons.1 c1.1).2, fun x hx => c1.2 x (List.mem_cons_of_mem _ hx)⟩
          (fun x hx => hall x (List.mem_cons_of_mem _ hx)), add_mul, ← M.term _ _ sm ht, ← hk, hmul]
    · intro h kh ch he
      obtain ⟨a, b, c⟩ := M.map_mul_canon ht ht2 kh ch
      have : v1 = h.map fun i => (mul i.1 t.1, i.2 * t.2) := canon_unique M.lawful M.sep k1 a c1 b (by rw [he, c])
      subst this
      clear he a b c k1 c1 kQ cQ
      rw [List.filterMap_map, List.filterMap_map]
      refine ⟨filterMap_id_of fun x hx => ?_, List.filterMap_eq_nil_iff.2 fun x hx => ?_⟩
      · simp [oneTermQ, M.div_mul _ _ (kh x hx) ht, hexact _ ht2, ch.2 x hx]
      · simp [oneTermR, M.div_mul _ _ (kh x hx) ht, hexact _ ht2]
  | y :: y' :: w, _, k2, c2 =>
    unfold pvDivRem
    by_cases h0 : v1 = []
    · refine ⟨0, [], [], fun fuel _ => ?_, KeysIn.nil, ⟨List.Pairwise.nil, by simp⟩, ?_, ?_⟩
      · simp only [h0, if_true]
      · intro _; rw [h0]; simp
      · intro h kh ch he
        refine ⟨(M.rem_zero kh KeysIn.nil KeysIn.nil k2 ch ⟨List.Pairwise.nil, by simp⟩
          ⟨List.Pairwise.nil, by simp⟩ c2 (by simp) ?_).1, rfl⟩
        rw [← he, h0]; simp
    · simp only [h0, if_false]
      obtain ⟨L, _, r, hr⟩ := M.lawful.exists_rank
      have hlc : (at_ (y :: y' :: w) 0).2 ≠ 0 := c2.2 _ (at_mem (by simp))
      obtain ⟨N, Q, R', e1, e2, ⟨b, e3⟩, e4, e5⟩ := heapDiv_spec (emit := fun _ k2 => k2) (divc := divc) hr M.wf
        (M.divCompat k2 (by simp)) k1 c1 c2 (by simp) (by
          intro k
          have := hdiv _ hlc k
          split
          · rename_i h0; rw [h0] at this; exact this
          · exact this)
      obtain ⟨kQ, cQ⟩ := M.quot_canon k2 (by simp) e3
      have kR : KeysIn S R' := fun x hx => (e5 x hx).1
      have cR : Canon comp R' := (canon_iff hr kR).2 ⟨e4, fun x hx => by
        rcases (e5 x hx).2 with ⟨_, h⟩ | ⟨k, _, h, h'⟩
        · exact h
        · rw [h']; exact h⟩
      -- transfer to the source's `emit`
      have hem : ∀ fuel ≥ N, ∃ R'', heapDiv mul divx divc (fun k _ => k) comp fuel v1 (y :: y' :: w) = some (Q, R'') ∧
          R''.map Prod.fst = R'.map Prod.fst := by
        intro fuel hf
        have hE := divLoop_emit (mul := mul) (divx := divx) (divc := divc) (comp := comp) (v2 := y :: y' :: w)
          (emit := fun _ k2 => k2) (fun k _ => k) fuel
          { Q := [], Rem := [], rest := v1, heap := fun _ => [], size := 0, pos := fun _ => 0,
            resetH := (y :: y' :: w).length - 1 } _ rfl rfl rfl rfl rfl rfl rfl
        have hE1 := e1 fuel hf
        unfold heapDiv at hE1 ⊢
        rw [hE1] at hE
        cases hX : divLoop mul divx divc (fun k _ => k) comp (y :: y' :: w) fuel _ with
        | none => rw [hX] at hE; simp at hE
        | some Z =>
          rw [hX] at hE
          simp only [Option.map_some, Option.some.injEq, Prod.mk.injEq] at hE
          exact ⟨Z.2, by rw [hE.1], hE.2.symm⟩
      obtain ⟨R0, r1, r2⟩ := hem N le_rfl
      have hmono : ∀ fuel ≥ N, heapDiv mul divx divc (fun k _ => k) comp fuel v1 (y :: y' :: w) = some (Q, R0) := by
        intro fuel hf
        obtain ⟨d, rfl⟩ := Nat.exists_eq_add_of_le hf
        unfold heapDiv at r1 ⊢
        exact divLoop_mono _ _ _ r1 d
      refine ⟨N, Q, R0, fun fuel hf => by rw [hmono fuel hf]; rfl, kQ, cQ, ?_, ?_⟩
      · intro hR
        rw [hR] at r2
        have : R' = [] := by simpa using r2.symm
        rw [e2, this, den_nil, add_zero]
      · intro h kh ch he
        obtain ⟨f1, f2⟩ := M.rem_zero kh kQ kR k2 ch cQ cR c2 (by
          intro x hx
          rcases (e5 x hx).2 with ⟨h, _⟩ | ⟨k, _, h, h'⟩
          · exact .inl h
          · refine .inr fun q hq => h ?_
            have h3 := hdiv _ hlc k
            rw [h'] at hq
            have hq' : (divc k (at_ (y :: y' :: w) 0).2).2 = q * (at_ (y :: y' :: w) 0).2 := hq
            rw [hq', ← add_mul] at h3
            rw [h3, hexact _ hlc]) (by rw [← he, e2])
        refine ⟨f1, ?_⟩
        rw [f2] at r2
        simpa using r2

/-- **division with remainder over a field** (no coefficient remainder) -/
theorem pvDivRem_field [NoZeroDivisors R] (k1 : KeysIn S v1) (k2 : KeysIn S v2)
    (c1 : Canon comp v1) (c2 : Canon comp v2) (hv2 : v2 ≠ [])
    (hdiv : ∀ lc : R, lc ≠ 0 → ∀ k, k = (divc k lc).1 * lc ∧ (divc k lc).2 = 0) :
    ∃ N Q R', (∀ fuel ≥ N, pvDivRem mul divx divc comp fuel v1 v2 = some (some (Q, R'))) ∧
      KeysIn S Q ∧ Canon comp Q ∧ KeysIn S R' ∧ Canon comp R' ∧ den T v1 = den T Q * den T v2 + den T R' ∧
      ∀ x ∈ R', ∀ lt ∈ v2.head?, divx x.1 lt.1 = none := by
  match v2, hv2, k2, c2 with
  | [t], _, k2, c2 =>
    have ht := k2 t (by simp)
    have ht2 := c2.2 t (by simp)
    obtain ⟨kQ, cQ⟩ := M.oneTerm_quot (divc := divc) ht k1 c1
    have hRe : (v1.filterMap (oneTermR divx divc t)) = v1.filter fun i => divx i.1 t.1 = none := by
      rw [← List.filterMap_eq_filter]
      congr 1
      funext i
      cases hd : divx i.1 t.1 with
      | none => simp [oneTermR, Option.guard, hd]
      | some m => simp [oneTermR, Option.guard, hd, (hdiv _ ht2 i.2).2]
    refine ⟨0, _, _, fun fuel _ => rfl, kQ, cQ, ?_⟩
    rw [hRe]
    refine ⟨fun x hx => k1 x (List.mem_of_mem_filter hx), ⟨c1.1.filter _, fun x hx => c1.2 x (List.mem_of_mem_filter hx)⟩,
      ?_, ?_⟩
    · clear hRe kQ cQ
      rw [den_cons, den_nil, add_zero]
      induction v1 with
      | nil => simp
      | cons i v1 ih =>
        obtain ⟨kx, kv⟩ := KeysIn.cons.1 k1
        have hk := (hdiv _ ht2 i.2).1
        have hih := ih kv ⟨(List.pairwise_cons.1 c1.1).2, fun x hx => c1.2 x (List.mem_cons_of_mem _ hx)⟩
        rw [List.filterMap_cons]
        cases hm : divx i.1 t.1 with
        | none =>
          rw [List.filter_cons_of_pos (by simpa using hm)]
          simp only [oneTermQ, hm, den_cons]
          rw [hih]; ring
        | some m =>
          obtain ⟨sm, hmul⟩ := (M.div _ _ _ kx ht).1 hm
          have hne : (divc i.2 t.2).1 ≠ 0 := by
            intro h0; rw [h0, zero_mul] at hk; exact c1.2 i (by simp) hk
          rw [List.filter_cons_of_neg (by simp [hm])]
          simp only [oneTermQ, hm, ne_eq, hne, not_false_eq_true, if_true, den_cons]
          rw [hih, add_mul, ← M.term _ _ sm ht, ← hk, hmul]; ring
    · intro x hx lt hlt
      simp only [List.head?_cons, Option.mem_some_iff] at hlt
      subst hlt
      simpa using (List.mem_filter.1 hx).2
  | y :: y' :: w, _, k2, c2 =>
    unfold pvDivRem
    by_cases h0 : v1 = []
    · refine ⟨0, [], [], fun fuel _ => by simp only [h0, if_true], KeysIn.nil, ⟨List.Pairwise.nil, by simp⟩, KeysIn.nil,
        ⟨List.Pairwise.nil, by simp⟩, by rw [h0]; simp, by simp⟩
    · simp only [h0, if_false]
      obtain ⟨L, _, r, hr⟩ := M.lawful.exists_rank
      have hlc : (at_ (y :: y' :: w) 0).2 ≠ 0 := c2.2 _ (at_mem (by simp))
      obtain ⟨N, Q, R', e1, e2, ⟨b, e3⟩, e4, e5⟩ := heapDiv_spec (emit := fun k _ => k) (divc := divc) hr M.wf
        (M.divCompat k2 (by simp)) k1 c1 c2 (by simp) (by
          intro k
          have := hdiv _ hlc k
          rw [if_pos this.2, add_zero]; exact this.1)
      obtain ⟨kQ, cQ⟩ := M.quot_canon k2 (by simp) e3
      have kR : KeysIn S R' := fun x hx => (e5 x hx).1
      have hn : ∀ x ∈ R', divx x.1 y.1 = none ∧ x.2 ≠ 0 := by
        intro x hx
        rcases (e5 x hx).2 with h | ⟨k, _, h, h'⟩
        · exact h
        · exact absurd (hdiv _ hlc k).2 h
      refine ⟨N, Q, R', fun fuel hf => by rw [e1 fuel hf]; rfl, kQ, cQ, kR,
        (canon_iff hr kR).2 ⟨e4, fun x hx => (hn x hx).2⟩, e2, ?_⟩
      intro x hx lt hlt
      simp only [List.head?_cons, Option.mem_some_iff] at hlt
      subst hlt
      exact (hn x hx).1

end MonoSys
end CLPoly
