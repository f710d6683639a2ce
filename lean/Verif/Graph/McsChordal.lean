import Verif.Graph.McsMain
import Mathlib.Tactic.IntervalCases

/-! # On chordal graphs nothing is filled in, and `__MCS` finds a perfect elimination ordering -/

namespace CLPoly
open Relation Mcs

/-- a path of length `m` from `u` to `v` with inner vertices in `P` -/
def IsPath (G : ℕ → ℕ → Prop) (P : ℕ → Prop) (u v m : ℕ) (p : ℕ → ℕ) : Prop :=
  p 0 = u ∧ p m = v ∧ (∀ i < m, G (p i) (p (i + 1))) ∧ ∀ i, 0 < i → i < m → P (p i)

theorem isPath_of_rtg {G : ℕ → ℕ → Prop} {P : ℕ → Prop} {u x v : ℕ} (h : ReflTransGen (fun a b => G a b ∧ P b) u x) (hxv : G x v) :
    ∃ m p, IsPath G P u v m p := by
  suffices H : ∀ x, ReflTransGen (fun a b => G a b ∧ P b) u x → ∀ v, G x v → ∃ m p, IsPath G P u v (m + 1) p ∧ p m = x by
    obtain ⟨m, p, h, _⟩ := H x h v hxv
    exact ⟨m + 1, p, h⟩
  intro x h
  induction h with
  | refl =>
    intro v hv
    refine ⟨0, fun i => if i = 0 then u else v, ⟨rfl, rfl, ?_, ?_⟩, rfl⟩
    · intro i hi
      have : i = 0 := by omega
      subst this; exact hv
    · intro i h1 h2; omega
  | @tail x y h1 h2 ih =>
    intro v hv
    obtain ⟨m, p, ⟨a, b, c, d⟩, e⟩ := ih y h2.1
    refine ⟨m + 1, fun i => if i ≤ m + 1 then p i else v, ⟨?_, ?_, ?_, ?_⟩, ?_⟩
    · simp [a]
    · simp
    · intro i hi
      by_cases h : i + 1 ≤ m + 1
      · dsimp only
        rw [if_pos (by omega), if_pos h]; exact c i (by omega)
      · dsimp only
        have : i = m + 1 := by omega
        subst this
        rw [if_pos le_rfl, if_neg (by omega), b]; exact hv
    · intro i hi1 hi2
      dsimp only
      rw [if_pos (by omega)]
      by_cases h : i < m + 1
      · exact d i hi1 h
      · have : i = m + 1 := by omega
        subst this
        rw [b]; exact h2.2
    · simp [b]

/-- a shortest path is chordless -/
theorem shortest_induced {G : ℕ → ℕ → Prop} {P : ℕ → Prop} {u v m : ℕ} {p : ℕ → ℕ} (hp : IsPath G P u v m p)
    (hmin : ∀ m' < m, ∀ q, ¬ IsPath G P u v m' q) {i j : ℕ} (hij : i < j) (hj : j ≤ m) : p i ≠ p j ∧ (G (p i) (p j) → j = i + 1) := by
  obtain ⟨a, b, c, d⟩ := hp
  constructor
  · intro e
    refine hmin (m - (j - i)) (by omega) (fun l => if l ≤ i then p l else p (l + (j - i))) ⟨by simp [a], ?_, ?_, ?_⟩
    · dsimp only
      by_cases h : m - (j - i) ≤ i
      · rw [if_pos h]
        have h1 : j = m := by omega
        have h2 : m - (j - i) = i := by omega
        rw [h2, e, h1, b]
      · rw [if_neg h, Nat.sub_add_cancel (by omega), b]
    · intro l hl
      dsimp only
      by_cases h : l + 1 ≤ i
      · rw [if_pos (by omega), if_pos h]; exact c l (by omega)
      · rw [if_neg h]
        by_cases h' : l ≤ i
        · have : l = i := by omega
          subst this
          rw [if_pos le_rfl, e]
          have h3 : l + 1 + (j - l) = j + 1 := by omega
          rw [h3]
          exact c j (by omega)
        · rw [if_neg h']
          have h3 : l + 1 + (j - i) = l + (j - i) + 1 := by omega
          rw [h3]
          exact c _ (by omega)
    · intro l hl1 hl2
      dsimp only
      by_cases h : l ≤ i
      · rw [if_pos h]; exact d l hl1 (by omega)
      · rw [if_neg h]; exact d _ (by omega) (by omega)
  · intro hg
    by_contra hne
    refine hmin (m - (j - i - 1)) (by omega) (fun l => if l ≤ i then p l else p (l + (j - i - 1))) ⟨by simp [a], ?_, ?_, ?_⟩
    · dsimp only
      rw [if_neg (by omega), Nat.sub_add_cancel (by omega), b]
    · intro l hl
      dsimp only
      by_cases h : l + 1 ≤ i
      · rw [if_pos (by omega), if_pos h]; exact c l (by omega)
      · rw [if_neg h]
        by_cases h' : l ≤ i
        · have : l = i := by omega
          subst this
          rw [if_pos le_rfl]
          have h3 : l + 1 + (j - l - 1) = j := by omega
          rw [h3]
          exact hg
        · rw [if_neg h']
          have h3 : l + 1 + (j - i - 1) = l + (j - i - 1) + 1 := by omega
          rw [h3]
          exact c _ (by omega)
    · intro l hl1 hl2
      dsimp only
      by_cases h : l ≤ i
      · rw [if_pos h]; exact d l hl1 (by omega)
      · rw [if_neg h]; exact d _ (by omega) (by omega)

/-- in a chordal graph, a chordless path of length ≥ 2 whose ends are both adjacent to `y` has its last inner vertex adjacent to `y` -/
theorem chordal_path {G : ℕ → ℕ → Prop} (hs : ∀ a b, G a b → G b a) (hch : Chordal G) {m : ℕ} {p : ℕ → ℕ} (hm : 2 ≤ m) (hpath : ∀ i < m, G (p i) (p (i + 1)))
    (hind : ∀ i j, i < j → j ≤ m → p i ≠ p j ∧ (G (p i) (p j) → j = i + 1)) {y : ℕ} (hy : ∀ i ≤ m, y ≠ p i) (hy0 : G y (p 0)) (hym : G y (p m)) :
    G y (p (m - 1)) := by
  classical
  by_contra hcon
  -- the last vertex before m - 1 adjacent to y
  obtain ⟨i, hi, hiy, hmax⟩ : ∃ i ≤ m - 2, G y (p i) ∧ ∀ j, i < j → j ≤ m - 2 → ¬ G y (p j) := by
    have := Nat.findGreatest_spec (P := fun i => G y (p i)) (n := m - 2) (m := 0) (by omega) hy0
    refine ⟨Nat.findGreatest (fun i => G y (p i)) (m - 2), Nat.findGreatest_le _, this, fun j hj1 hj2 => Nat.findGreatest_is_greatest (P := fun i => G y (p i)) hj1 hj2⟩
  have hno : ∀ j, i < j → j < m → ¬ G y (p j) := by
    intro j h1 h2
    by_cases h : j ≤ m - 2
    · exact hmax j h1 h
    · have : j = m - 1 := by omega
      rw [this]; exact hcon
  have hmod : ∀ a < m - i + 2, (a + 1 < m - i + 2 ∧ (a + 1) % (m - i + 2) = a + 1) ∨ (a = m - i + 1 ∧ (a + 1) % (m - i + 2) = 0) := by
    intro a ha
    by_cases h : a + 1 < m - i + 2
    · exact .inl ⟨h, Nat.mod_eq_of_lt h⟩
    · have : a = m - i + 1 := by omega
      exact .inr ⟨this, by rw [this, Nat.mod_self]⟩
  obtain ⟨a, ha, b, hb, hab, hab1, hba1, hE⟩ := hch (m - i + 2) (fun l => if l = 0 then y else p (i + l - 1)) (by omega) (by
    intro a ha b hb e
    by_cases h1 : a = 0
    · by_cases h2 : b = 0
      · omega
      · rw [if_pos h1, if_neg h2] at e
        exact absurd e (hy _ (by omega))
    · by_cases h2 : b = 0
      · rw [if_neg h1, if_pos h2] at e
        exact absurd e.symm (hy _ (by omega))
      · rw [if_neg h1, if_neg h2] at e
        by_contra hne
        rcases Nat.lt_or_gt_of_ne hne with h | h
        · exact (hind (i + a - 1) (i + b - 1) (by omega) (by omega)).1 e
        · exact (hind (i + b - 1) (i + a - 1) (by omega) (by omega)).1 e.symm) (by
    intro a ha
    rcases hmod a ha with ⟨h1, h2⟩ | ⟨h1, h2⟩
    · rw [h2, if_neg (by omega : a + 1 ≠ 0)]
      by_cases h3 : a = 0
      · subst h3
        rw [if_pos rfl]
        simpa using hiy
      · rw [if_neg h3]
        have h4 : i + (a + 1) - 1 = (i + a - 1) + 1 := by omega
        rw [h4]
        exact hpath _ (by omega)
    · rw [h2, if_pos rfl, if_neg (by omega)]
      have h4 : i + a - 1 = m := by omega
      rw [h4]
      exact hs _ _ hym)
  have hya : ∀ b, b < m - i + 2 → b ≠ 0 → b ≠ 1 → b ≠ m - i + 1 → ¬ G y (p (i + b - 1)) := by
    intro b h1 h2 h3 h4
    exact hno _ (by omega) (by omega)
  have hA := hmod a ha
  have hB := hmod b hb
  by_cases h1 : a = 0
  · have h2 : b ≠ 0 := by omega
    rw [if_pos h1, if_neg h2] at hE
    exact hya b hb h2 (by omega) (by omega) hE
  · by_cases h2 : b = 0
    · rw [if_neg h1, if_pos h2] at hE
      exact hya a ha h1 (by omega) (by omega) (hs _ _ hE)
    · rw [if_neg h1, if_neg h2] at hE
      rcases Nat.lt_or_gt_of_ne hab with h | h
      · have := (hind (i + a - 1) (i + b - 1) (by omega) (by omega)).2 hE
        omega
      · have := (hind (i + b - 1) (i + a - 1) (by omega) (by omega)).2 (hs _ _ hE)
        omega

open Classical in
/-- a chordal graph between the input and the filled graph is the filled graph: the fill-in of MCS-M is minimal -/
theorem fill_minimal {G : ℕ → ℕ → Prop} {V : ℕ → Prop} {num : ℕ → ℕ} {w : ℕ → ℕ → ℕ} (T : Trace G V num w) (hw0 : ∀ v, w 0 v = 0)
    {K : ℕ → ℕ → Prop} (hGK : ∀ a b, G a b → K a b) (hKs : ∀ a b, K a b → K b a) (hKV : ∀ a b, K a b → V a)
    (hKF : ∀ a b, V a → num a < num b → K a b → Fill G num w (num a) a b) (hch : Chordal K)
    (u v : ℕ) (hu : V u) (huv : num u < num v) (hf : Fill G num w (num u) u v) : K u v := by
  obtain ⟨t, ht⟩ : ∃ t, num u = t := ⟨_, rfl⟩
  induction t using Nat.strong_induction_on generalizing u v with
  | _ t ih =>
    -- weights count numbered neighbours
    have hcount : ∀ k ≤ t, ∀ x, V x → k ≤ num x → w k x = ((Finset.range k).filter fun τ => ∃ z, V z ∧ num z = τ ∧ K z x).card := by
      intro k
      induction k with
      | zero => intro _ x _ _; simp [hw0]
      | succ k ihk =>
        intro hk x hx hkx
        obtain ⟨z, hz, hzk⟩ := T.surj x k hx (by omega)
        have h1 := ihk (by omega) x hx (by omega)
        rw [Finset.range_add_one, Finset.filter_insert]
        by_cases hg : K z x
        · rw [if_pos ⟨z, hz, hzk, hg⟩, Finset.card_insert_of_notMem (by simp), ← h1]
          have := T.upd_fill z x hz hx (by omega) (hKF z x hz (by omega) hg)
          rw [hzk] at this; exact this
        · have hnf : ¬ Fill G num w (num z) z x := fun h => hg (ih k (by omega) z x hz (by omega) h hzk)
          have h2 : ¬ ∃ z', V z' ∧ num z' = k ∧ K z' x := by
            rintro ⟨z', hz', hn, hg'⟩
            rw [T.inj z' z hz' hz (by omega)] at hg'
            exact hg hg'
          rw [if_neg h2, ← h1]
          have := T.upd_not z x hz hx (by omega) hnf
          rw [hzk] at this; exact this
    by_contra hnG
    obtain ⟨x, hx, hxv⟩ := hf
    have hv : V v := (T.vert _ _ hxv).2
    obtain ⟨m0, p0, hp0⟩ := isPath_of_rtg (G := K) (P := fun b => t < num b ∧ w t b < w t v) (u := u) (x := x) (v := v) (by rw [← ht]; exact ReflTransGen.mono (fun a b h => ⟨hGK a b h.1, h.2⟩) _ _ hx) (hGK _ _ hxv)
    obtain ⟨m, ⟨p, hp⟩, hmin⟩ : ∃ m, (∃ p, IsPath K (fun b => t < num b ∧ w t b < w t v) u v m p) ∧
        ∀ m' < m, ∀ q, ¬ IsPath K (fun b => t < num b ∧ w t b < w t v) u v m' q := by
      have hex : ∃ m, ∃ p, IsPath K (fun b => t < num b ∧ w t b < w t v) u v m p := ⟨m0, p0, hp0⟩
      exact ⟨Nat.find hex, Nat.find_spec hex, fun m' hm' q hq => Nat.find_min hex hm' ⟨q, hq⟩⟩
    have hind := fun i j (h1 : i < j) (h2 : j ≤ m) => shortest_induced hp hmin h1 h2
    obtain ⟨e0, em, hE, hP⟩ := hp
    have hm2 : 2 ≤ m := by
      by_contra hc
      have : m = 0 ∨ m = 1 := by omega
      rcases this with rfl | rfl
      · rw [e0] at em
        rw [em] at huv; omega
      · have := hE 0 (by omega)
        rw [e0, em] at this
        exact hnG this
    have hxk := hP (m - 1) (by omega) (by omega)
    have hxkV : V (p (m - 1)) := by
      exact hKV _ _ (hE (m - 1) (by omega))
    -- a numbered neighbour of v that is not a neighbour of the last inner vertex
    have hlt := hxk.2
    rw [hcount t le_rfl _ hxkV hxk.1.le, hcount t le_rfl v hv (by omega)] at hlt
    obtain ⟨τ, hτ1, hτ2⟩ : ∃ τ ∈ (Finset.range t).filter (fun τ => ∃ z, V z ∧ num z = τ ∧ K z v), τ ∉ (Finset.range t).filter (fun τ => ∃ z, V z ∧ num z = τ ∧ K z (p (m - 1))) := by
      by_contra hc
      push Not at hc
      exact absurd (Finset.card_le_card hc) (by omega)
    rw [Finset.mem_filter, Finset.mem_range] at hτ1
    obtain ⟨hτt, y, hyV, hyτ, hyv⟩ := hτ1
    have hyk : ¬ K y (p (m - 1)) := fun h => hτ2 (Finset.mem_filter.2 ⟨Finset.mem_range.2 hτt, y, hyV, hyτ, h⟩)
    have hyu : K y u := by
      have h1 : Fill G num w (num y) y u := fill_closed T hyV hu (by omega) huv (hKF y v hyV (by omega) hyv) ⟨x, hx, hxv⟩
      exact ih τ hτt y u hyV (by omega) h1 hyτ
    refine hyk (chordal_path hKs hch hm2 hE hind (y := y) ?_ (by rw [e0]; exact hyu) (by rw [em]; exact hyv))
    intro i hi e
    by_cases h0 : i = 0
    · rw [h0, e0] at e
      rw [e] at hyτ; omega
    · by_cases hlast : i = m
      · rw [hlast, em] at e
        rw [e] at hyτ; omega
      · have := (hP i (by omega) (by omega)).1
        rw [← e] at this; omega

/-- on a chordal graph every fill edge is already an edge -/
theorem fill_chordal {G : ℕ → ℕ → Prop} {V : ℕ → Prop} {num : ℕ → ℕ} {w : ℕ → ℕ → ℕ} (T : Trace G V num w) (hch : Chordal G) (hw0 : ∀ v, w 0 v = 0)
    (u v : ℕ) (hu : V u) (huv : num u < num v) (hf : Fill G num w (num u) u v) : G u v :=
  fill_minimal T hw0 (fun _ _ h => h) T.symm (fun _ _ h => (T.vert _ _ h).1) (fun a _ _ _ h => ⟨a, .refl, h⟩) hch u v hu huv hf

/-- no chordal graph lies properly between the input of `__MCS_M` and its result -/
theorem mcsM_minimal (R : ℕ → ℕ → Bool) {G : List (List ℕ)} (hsort : ∀ l ∈ G, l.Pairwise (· < ·)) (hs : ∀ a b, AdjIdx G a b → AdjIdx G b a)
    (hlt : ∀ a b, AdjIdx G a b → b < G.length) {g' : List (List ℕ)} {l : List ℕ} (e : mcsM R G = some (g', l)) {K : ℕ → ℕ → Prop}
    (hGK : ∀ a b, AdjIdx G a b → K a b) (hKs : ∀ a b, K a b → K b a) (hKg : ∀ a b, K a b → AdjIdx g' a b) (hch : Chordal K) :
    ∀ a b, AdjIdx g' a b → K a b := by
  obtain ⟨s, us, M⟩ := mrun_exists R hsort hs hlt
  have T := M.trace hs hlt
  have I := M.inv G.length le_rfl
  have e2 : g' = (s G.length).g := by
    unfold mcsM at e
    rw [M.run _ le_rfl] at e
    simp only [Option.map_some, Option.some.injEq, Prod.mk.injEq] at e
    exact e.1.symm
  subst e2
  have hb : ∀ a b, K a b → a < G.length := fun a b h => I.lt _ _ (I.symm _ _ (hKg a b h))
  have hmin := fill_minimal T M.w0 hGK hKs hb (fun a b ha hab h => (M.final_edge hlt ha (I.lt _ _ (hKg a b h)) hab).1 (hKg a b h)) hch
  intro a b hab
  have ha := I.lt _ _ (I.symm _ _ hab)
  have hbl := I.lt _ _ hab
  by_cases e : a = b
  · subst e; exact hGK _ _ ((M.final_loop ha).1 hab)
  · rcases lt_trichotomy (timeOf G s a) (timeOf G s b) with h | h | h
    · exact hmin a b ha h ((M.final_edge hlt ha hbl h).1 hab)
    · exact absurd (T.inj a b ha hbl h) e
    · exact hKs _ _ (hmin b a hbl h ((M.final_edge hlt hbl ha h).1 (I.symm _ _ hab)))

/-! ## `__MCS` -/

theorem mcsPick_congr (n : ℕ) {w w' num : ℕ → ℕ} (r : ℕ → Bool) (h : ∀ v < n, num v = 0 → w v = w' v) : mcsPick n w num r = mcsPick n w' num r := by
  have : ∀ k ≤ n, (List.range k).foldl (mcsPickStep w num r) (true, 0, 0) = (List.range k).foldl (mcsPickStep w' num r) (true, 0, 0) := by
    intro k
    induction k with
    | zero => intro _; rfl
    | succ k ih =>
      intro hk
      rw [List.range_succ, List.foldl_append, List.foldl_append, ih (by omega), List.foldl_cons, List.foldl_cons, List.foldl_nil, List.foldl_nil]
      unfold mcsPickStep
      by_cases h0 : num k = 0
      · rw [h k (by omega) h0]
      · simp [h0]
  unfold mcsPick
  rw [this n le_rfl]

theorem incSome (num : ℕ → ℕ) (l : List ℕ) (hl : l.Nodup) : ∀ w : ℕ → ℕ, ∀ j, num j = 0 →
    (l.foldl (fun w j => if num j = 0 then Function.update w j (w j + 1) else w) w) j = w j + if j ∈ l then 1 else 0 := by
  induction l with
  | nil => intro w j _; simp
  | cons a l ih =>
    intro w j hj
    obtain ⟨ha, hl'⟩ := List.nodup_cons.1 hl
    rw [List.foldl_cons, ih hl' _ _ hj]
    by_cases e : j = a
    · subst e; simp [ha, hj]
    · split <;> simp [e]

/-- on a chordal graph `__MCS` and `__MCS_M` make the same choices -/
theorem mcs_eq (R : ℕ → ℕ → Bool) {G : List (List ℕ)} (hsort : ∀ l ∈ G, l.Pairwise (· < ·)) (hs : ∀ a b, AdjIdx G a b → AdjIdx G b a)
    (hlt : ∀ a b, AdjIdx G a b → b < G.length) (hch : Chordal (AdjIdx G)) :
    ∃ g', mcsM R G = some (g', mcs R G) ∧ ∀ a b, AdjIdx g' a b ↔ AdjIdx G a b := by
  obtain ⟨s, us, M⟩ := mrun_exists R hsort hs hlt
  have T := M.trace hs hlt
  have I := M.inv G.length le_rfl
  have hfill : ∀ u v, u < G.length → timeOf G s u < timeOf G s v → (Fill (AdjIdx G) (timeOf G s) (fun t v => (s t).w v) (timeOf G s u) u v ↔ AdjIdx G u v) :=
    fun u v hu huv => ⟨fill_chordal T hch M.w0 u v hu huv, fun h => ⟨u, .refl, h⟩⟩
  refine ⟨(s G.length).g, ?_, ?_⟩
  · have sim : ∀ t ≤ G.length, ∃ w, (List.range t).foldl (fun st t => mcsStep G.length (R t) (G.length - t) G st) (fun _ => 0, fun _ => 0, []) = (w, (s t).num, (s t).l) ∧
        ∀ v < G.length, (s t).num v = 0 → w v = (s t).w v := by
      intro t
      induction t with
      | zero =>
        intro h
        refine ⟨fun _ => 0, ?_, fun v _ _ => (M.w0 v).symm⟩
        have h0 := M.run 0 h
        have h1 : mcsmRun G.length R G 0 = some ⟨G, fun _ => 0, fun _ => 0, []⟩ := rfl
        rw [h1] at h0
        simp only [Option.some.injEq] at h0
        rw [← h0]; rfl
      | succ t ih =>
        intro ht
        obtain ⟨w, e, hw⟩ := ih (by omega)
        have S := M.step t (by omega)
        have hpick : mcsPick G.length w (s t).num (R t) = us t := by
          rw [M.pick t (by omega)]
          exact mcsPick_congr _ _ hw
        rw [List.range_succ, List.foldl_append, e, List.foldl_cons, List.foldl_nil]
        unfold mcsStep
        dsimp only
        rw [hpick, ← S.num, ← S.l]
        refine ⟨_, rfl, fun v hv h0 => ?_⟩
        have hnd : (G.getD (us t) []).Nodup := by
          rw [List.getD_eq_getElem _ _ S.ult]
          exact (hsort _ (List.getElem_mem _)).imp fun h => h.ne
        rw [incSome _ _ hnd _ _ h0]
        have htv : t < timeOf G s v := (M.num_zero hv ht).1 h0
        have h0' : (s t).num v = 0 := (M.num_zero hv (by omega)).2 htv.le
        have hf : SFill (s t).g (s t).w (s (t + 1)).num (us t) v ↔ v ∈ G.getD (us t) [] := by
          rw [M.fill_iff hlt (by omega) htv]
          have := hfill (us t) v S.ult (by rw [M.time_us (by omega)]; exact htv)
          rw [M.time_us (by omega)] at this
          exact this
        rw [hw v hv h0']
        by_cases hm : v ∈ G.getD (us t) []
        · rw [if_pos hm, S.w_fill v hv h0 (hf.2 hm)]
        · rw [if_neg hm, S.w_not v hv h0 fun h => hm (hf.1 h)]; rfl
    obtain ⟨w, e, _⟩ := sim G.length le_rfl
    unfold mcsM mcs
    rw [M.run _ le_rfl, e]; rfl
  · intro a b
    constructor
    · intro hab
      have ha := I.lt _ _ (I.symm _ _ hab)
      have hb := I.lt _ _ hab
      by_cases e : a = b
      · subst e; exact (M.final_loop ha).1 hab
      · rcases lt_trichotomy (timeOf G s a) (timeOf G s b) with h | h | h
        · exact (hfill a b ha h).1 ((M.final_edge hlt ha hb h).1 hab)
        · exact absurd (T.inj a b ha hb h) e
        · exact hs _ _ ((hfill b a hb h).1 ((M.final_edge hlt hb ha h).1 (I.symm _ _ hab)))
    · intro hab
      have ha := hlt _ _ (hs _ _ hab)
      have hb := hlt _ _ hab
      by_cases e : a = b
      · subst e; exact (M.final_loop ha).2 hab
      · rcases lt_trichotomy (timeOf G s a) (timeOf G s b) with h | h | h
        · exact (M.final_edge hlt ha hb h).2 ((hfill a b ha h).2 hab)
        · exact absurd (T.inj a b ha hb h) e
        · exact I.symm _ _ ((M.final_edge hlt hb ha h).2 ((hfill b a hb h).2 (hs _ _ hab)))

end CLPoly
