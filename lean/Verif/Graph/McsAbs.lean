import Mathlib.Logic.Relation
import Mathlib.Tactic.ByContra
import Mathlib.Order.Basic
import Verif.Graph.Elim

/-! # Why MCS-M yields an elimination ordering: the argument on an abstract trace

`G` is the input graph, `num v` the time at which `v` is numbered, `w t v` the weight of `v` before step `t`. -/

namespace CLPoly
namespace Mcs
open Relation

variable {G : ℕ → ℕ → Prop} {num : ℕ → ℕ} {w : ℕ → ℕ → ℕ}

/-- a step of a path whose new vertex is numbered after time `t` and has weight below `c` -/
def Low (G : ℕ → ℕ → Prop) (num : ℕ → ℕ) (w : ℕ → ℕ → ℕ) (t c : ℕ) (a b : ℕ) : Prop := G a b ∧ t < num b ∧ w t b < c

/-- the set of vertices whose weight step `t` (numbering `u`) increases: those reachable from `u` by a path whose inner vertices are all
unnumbered and lighter than the end -/
def Fill (G : ℕ → ℕ → Prop) (num : ℕ → ℕ) (w : ℕ → ℕ → ℕ) (t u v : ℕ) : Prop := ∃ x, ReflTransGen (Low G num w t (w t v)) u x ∧ G x v

theorem Low.mono {t c c' : ℕ} (h : c ≤ c') {a b : ℕ} (hl : Low G num w t c a b) : Low G num w t c' a b := ⟨hl.1, hl.2.1, lt_of_lt_of_le hl.2.2 h⟩

theorem lowPath_mono {t c c' : ℕ} (h : c ≤ c') {a b : ℕ} (hl : ReflTransGen (Low G num w t c) a b) : ReflTransGen (Low G num w t c') a b :=
  ReflTransGen.mono (fun _ _ h' => h'.mono h) _ _ hl

/-- a run: `u t` is numbered at time `t`, `N` vertices in all -/
structure Trace (G : ℕ → ℕ → Prop) (V : ℕ → Prop) (num : ℕ → ℕ) (w : ℕ → ℕ → ℕ) : Prop where
  symm : ∀ a b, G a b → G b a
  vert : ∀ a b, G a b → V a ∧ V b
  sel : ∀ u v, V u → V v → num u ≤ num v → w (num u) v ≤ w (num u) u
  upd_fill : ∀ u v, V u → V v → num u < num v → Fill G num w (num u) u v → w (num u + 1) v = w (num u) v + 1
  upd_not : ∀ u v, V u → V v → num u < num v → ¬ Fill G num w (num u) u v → w (num u + 1) v = w (num u) v
  inj : ∀ u v, V u → V v → num u = num v → u = v
  /-- every time before the last has its vertex -/
  surj : ∀ v t, V v → t < num v → ∃ u, V u ∧ num u = t

variable {V : ℕ → Prop}

theorem lowPath_V (T : Trace G V num w) {t c a b : ℕ} (ha : V a) (h : ReflTransGen (Low G num w t c) a b) : V b := by
  cases h with
  | refl => exact ha
  | tail _ h2 => exact (T.vert _ _ h2.1).2

/-- domination persists until the dominating vertex is numbered -/
theorem dom_step (T : Trace G V num w) {u z y : ℕ} (hu : V u) (hz : V z) (huz : num u < num z) (hd : ReflTransGen (Low G num w (num u) (w (num u) z)) z y) :
    ReflTransGen (Low G num w (num u + 1) (w (num u + 1) z)) z y := by
  -- a low path from u to a vertex dominated by z extends to z
  have back : ∀ b, ReflTransGen (Low G num w (num u) (w (num u) z)) z b → ReflTransGen (Low G num w (num u) (w (num u) z)) u b → Fill G num w (num u) u z := by
    intro b hzb
    induction hzb with
    | refl =>
      intro hub
      rcases hub.cases_tail with e | ⟨c, _, hc⟩
      · subst e; exact absurd huz (lt_irrefl _)
      · exact absurd hc.2.2 (lt_irrefl _)
    | @tail b' b hzb' hb ih =>
      intro hub
      rcases hzb'.cases_tail with e | ⟨c, hc1, hc⟩
      · subst e
        exact ⟨b, hub, T.symm _ _ hb.1⟩
      · exact ih (.tail hub ⟨T.symm _ _ hb.1, hc.2.1, hc.2.2⟩)
  induction hd with
  | refl => exact .refl
  | @tail b' b hzb' hb ih =>
    have hbV : V b := (T.vert _ _ hb.1).2
    have hwt : w (num u + 1) b < w (num u + 1) z := by
      by_cases hf : Fill G num w (num u) u b
      · have hfz : Fill G num w (num u) u z := by
          obtain ⟨x, hx, hxb⟩ := hf
          exact back b (.tail hzb' hb) (.tail (lowPath_mono hb.2.2.le hx) ⟨hxb, hb.2⟩)
        rw [T.upd_fill u b hu hbV hb.2.1 hf, T.upd_fill u z hu hz huz hfz]
        have := hb.2.2; omega
      · rw [T.upd_not u b hu hbV hb.2.1 hf]
        by_cases hfz : Fill G num w (num u) u z
        · rw [T.upd_fill u z hu hz huz hfz]
          have := hb.2.2; omega
        · rw [T.upd_not u z hu hz huz hfz]
          exact hb.2.2
    refine .tail ih ⟨hb.1, ?_, hwt⟩
    have h1 := hb.2.1
    by_contra hc
    have e : num b = num u + 1 := by omega
    have := T.sel b z hbV hz (by omega)
    rw [e] at this
    omega

/-- a dominated vertex is numbered later -/
theorem dom_later (T : Trace G V num w) {z y : ℕ} (hz : V z) (k : ℕ) : ∀ t, num z = t + k → ReflTransGen (Low G num w t (w t z)) z y → y = z ∨ num z < num y := by
  induction k with
  | zero =>
    intro t ht hd
    rcases hd.cases_tail with e | ⟨c, _, hc⟩
    · exact .inl e
    · right; have := hc.2.1; omega
  | succ k ih =>
    intro t ht hd
    obtain ⟨u, hu, rfl⟩ := T.surj z t hz (by omega)
    have hz' : w (num u) z ≤ w (num u) u := T.sel u z hu hz (by omega)
    exact ih (num u + 1) (by omega) (dom_step T hu hz (by omega) hd)

theorem dom_later' (T : Trace G V num w) {z y t : ℕ} (hz : V z) (ht : t ≤ num z) (hd : ReflTransGen (Low G num w t (w t z)) z y) : y = z ∨ num z < num y :=
  dom_later T hz (num z - t) t (by omega) hd

/-- the fill path: a path from `u` whose inner vertices are all numbered after its end -/
def Late (G : ℕ → ℕ → Prop) (num : ℕ → ℕ) (m : ℕ) (a b : ℕ) : Prop := G a b ∧ m < num b

theorem rev_low (T : Trace G V num w) {t c a b : ℕ} (ha : t < num a ∧ w t a < c) (h : ReflTransGen (Low G num w t c) a b) : ReflTransGen (Low G num w t c) b a := by
  induction h with
  | refl => exact .refl
  | @tail b c' h1 h2 ih =>
    rcases h1.cases_tail with e | ⟨d, _, hd⟩
    · subst e; exact .single ⟨T.symm _ _ h2.1, ha⟩
    · exact .head ⟨T.symm _ _ h2.1, hd.2⟩ ih

/-- the inner vertices of a fill path are numbered after its end -/
theorem fill_late (T : Trace G V num w) {u v : ℕ} (hu : V u) (huv : num u < num v) (hf : Fill G num w (num u) u v) :
    ∃ x, ReflTransGen (Late G num (num v)) u x ∧ G x v := by
  obtain ⟨x, hx, hxv⟩ := hf
  have hv : V v := (T.vert _ _ hxv).2
  refine ⟨x, ?_, hxv⟩
  -- every vertex b on the path is dominated by v
  have key : ∀ b, ReflTransGen (Low G num w (num u) (w (num u) v)) b x → (num u < num b ∧ w (num u) b < w (num u) v) → num v < num b := by
    intro b hb hlow
    have h1 : ReflTransGen (Low G num w (num u) (w (num u) v)) x b := rev_low T hlow hb
    have hxlow : num u < num x ∧ w (num u) x < w (num u) v := by
      rcases hb.cases_tail with e | ⟨d, _, hd⟩
      · rw [e]; exact hlow
      · exact hd.2
    have h2 : ReflTransGen (Low G num w (num u) (w (num u) v)) v b := .head ⟨T.symm _ _ hxv, hxlow⟩ h1
    rcases dom_later' T hv huv.le h2 with e | h
    · rw [e] at hlow; exact absurd hlow.2 (lt_irrefl _)
    · exact h
  have go : ∀ a, ReflTransGen (Low G num w (num u) (w (num u) v)) a x → ReflTransGen (Late G num (num v)) a x := by
    intro a ha
    induction ha using ReflTransGen.head_induction_on with
    | refl => exact .refl
    | head h1 h2 ih => exact .head ⟨h1.1, key _ h2 h1.2⟩ ih
  exact go u hx

/-- conversely, if there is such a path then the edge is filled -/
theorem late_fill (T : Trace G V num w) {u v : ℕ} (hu : V u) (huv : num u < num v) {p : ℕ} (hp : ReflTransGen (Late G num (num v)) u p) (hpv : G p v) :
    Fill G num w (num u) u v := by
  by_contra hnf
  have hv : V v := (T.vert _ _ hpv).2
  have hwv := T.upd_not u v hu hv huv hnf
  -- forward: either the path so far is low, or some vertex on it has become heavier than v
  have fwd : ∀ p, ReflTransGen (Late G num (num v)) u p → ReflTransGen (Low G num w (num u) (w (num u) v)) u p ∨
      ∃ z, V z ∧ num v < num z ∧ w (num u + 1) v < w (num u + 1) z ∧ ReflTransGen (Late G num (num v)) z p := by
    intro p hp
    induction hp with
    | refl => exact .inl .refl
    | @tail p q h1 h2 ih =>
      rcases ih with ih | ⟨z, a, b, c, d⟩
      · have hq : V q := (T.vert _ _ h2.1).2
        have hlt : num u < num q := lt_trans huv h2.2
        by_cases hw : w (num u) q < w (num u) v
        · exact .inl (.tail ih ⟨h2.1, hlt, hw⟩)
        · right
          have hfq : Fill G num w (num u) u q := ⟨p, lowPath_mono (not_lt.1 hw) ih, h2.1⟩
          refine ⟨q, hq, h2.2, ?_, .refl⟩
          rw [T.upd_fill u q hu hq hlt hfq, hwv]; omega
      · exact .inr ⟨z, a, b, c, .tail d h2⟩
  rcases fwd p hp with h | ⟨z, hz, hzn, hzw, hzp⟩
  · exact hnf ⟨p, h, hpv⟩
  by_cases hnext : num u + 1 = num v
  · have hsel := T.sel v z hv hz hzn.le
    rw [← hnext] at hsel
    omega
  -- backwards from v: no vertex on the path is heavier than v
  have bwd : ∀ q, ReflTransGen (Late G num (num v)) q p → num v < num q → V q →
      (∀ c, w (num u + 1) v < c → ReflTransGen (Low G num w (num u + 1) c) q v) ∧ w (num u + 1) q ≤ w (num u + 1) v := by
    have fin : ∀ q, V q → num v < num q → (∀ c, w (num u + 1) v < c → ReflTransGen (Low G num w (num u + 1) c) q v) → w (num u + 1) q ≤ w (num u + 1) v := by
      intro q hq hqn h
      by_contra hc
      rcases dom_later' T hq (by omega) (h _ (not_le.1 hc)) with e | h'
      · rw [e] at hqn; omega
      · omega
    intro q hq
    induction hq using ReflTransGen.head_induction_on with
    | refl =>
      intro hn hV
      have h1 : ∀ c, w (num u + 1) v < c → ReflTransGen (Low G num w (num u + 1) c) p v := fun c hc => .single ⟨hpv, by omega, hc⟩
      exact ⟨h1, fin p hV hn h1⟩
    | @head q q' h1 h2 ih =>
      intro hn hV
      obtain ⟨i1, i2⟩ := ih h1.2 (T.vert _ _ h1.1).2
      have h3 : ∀ c, w (num u + 1) v < c → ReflTransGen (Low G num w (num u + 1) c) q v := fun c hc =>
        .head ⟨h1.1, by have := h1.2; omega, by omega⟩ (i1 c hc)
      exact ⟨h3, fin q hV hn h3⟩
  have := (bwd z hzp hzn hz).2
  omega

/-- the filled graph is closed: two earlier-numbered neighbours of a vertex are adjacent -/
theorem fill_closed (T : Trace G V num w) {x y v : ℕ} (hx : V x) (hy : V y) (hxy : num x < num y) (hyv : num y < num v)
    (h1 : Fill G num w (num x) x v) (h2 : Fill G num w (num y) y v) : Fill G num w (num x) x y := by
  obtain ⟨p, hp, hpv⟩ := fill_late T hx (hxy.trans hyv) h1
  obtain ⟨q, hq, hqv⟩ := fill_late T hy hyv h2
  -- x → p → v → q → … → y
  have hmono : ∀ a b, ReflTransGen (Late G num (num v)) a b → ReflTransGen (Late G num (num y)) a b :=
    fun a b h => ReflTransGen.mono (fun _ _ h' => ⟨h'.1, hyv.trans h'.2⟩) _ _ h
  -- reverse of the second path
  have hrev : ∀ q, ReflTransGen (Late G num (num v)) y q → ∀ c, ReflTransGen (Late G num (num y)) x c → G c q → (num y < num q ∨ q = y) →
      ∃ p, ReflTransGen (Late G num (num y)) x p ∧ G p y := by
    intro q hq
    induction hq with
    | refl => intro c hc hcy _; exact ⟨c, hc, hcy⟩
    | @tail q' q h1 h2 ih =>
      intro c hc hcq _
      have hcq' : ReflTransGen (Late G num (num y)) x q := .tail hc ⟨hcq, hyv.trans h2.2⟩
      refine ih q hcq' (T.symm _ _ h2.1) ?_
      rcases h1.cases_tail with e | ⟨d, _, hd⟩
      · exact .inr e
      · exact .inl (hyv.trans hd.2)
  have hxv : ReflTransGen (Late G num (num y)) x v := .tail (hmono _ _ hp) ⟨hpv, hyv⟩
  obtain ⟨r, hr, hry⟩ := hrev q hq v hxv (T.symm _ _ hqv) (by
    rcases hq.cases_tail with e | ⟨d, _, hd⟩
    · exact .inr e
    · exact .inl (hyv.trans hd.2))
  exact late_fill T hx hxy hr hry

/-- a relation that contains `G` and is closed under elimination contains every fill edge -/
theorem fill_least (T : Trace G V num w) {M : ℕ} (hM : ∀ v, V v → num v < M) {K : ℕ → ℕ → Prop} (hK : ∀ a b, G a b → K a b)
    (hKs : ∀ a b, K a b → K b a) (hc : ∀ x y v, V x → V y → V v → x ≠ y → num x < num v → num y < num v → K v x → K v y → K x y)
    {u v : ℕ} (hu : V u) (huv : num u < num v) (hf : Fill G num w (num u) u v) : K u v := by
  obtain ⟨x, hx, hxv⟩ := fill_late T hu huv hf
  have key : ∀ k m, M ≤ m + k → ∀ a b, V a → a ≠ b → num a ≤ m → num b ≤ m → ∀ x, ReflTransGen (Late G num m) a x → G x b → K a b := by
    intro k
    induction k with
    | zero =>
      intro m hm a b _ _ _ _ x hx hxb
      rcases hx.cases_tail with e | ⟨d, _, hd⟩
      · rw [e] at hxb; exact hK _ _ hxb
      · have := hM x (T.vert _ _ hxb).1
        have := hd.2
        omega
    | succ k ih =>
      intro m hm a b ha hab ham hbm x hx hxb
      have ih := ih (m + 1) (by omega)
      have hbV : V b := (T.vert _ _ hxb).2
      have fwd : ∀ x, ReflTransGen (Late G num m) a x → ReflTransGen (Late G num (m + 1)) a x ∨
          ∃ z, V z ∧ num z = m + 1 ∧ K a z ∧ ReflTransGen (Late G num (m + 1)) z x := by
        intro x hx
        induction hx with
        | refl => exact .inl .refl
        | @tail x y h1 h2 ihx =>
          have hy : V y := (T.vert _ _ h2.1).2
          by_cases hny : num y = m + 1
          · right
            refine ⟨y, hy, hny, ?_, .refl⟩
            rcases ihx with h | ⟨z, hz, hzn, hKz, _⟩
            · exact ih a y ha (by rintro rfl; omega) (by omega) (by omega) x h h2.1
            · rwa [T.inj y z hy hz (by omega)]
          · have h3 : Late G num (m + 1) x y := ⟨h2.1, by have := h2.2; omega⟩
            rcases ihx with h | ⟨z, hz, hzn, hKz, h⟩
            · exact .inl (.tail h h3)
            · exact .inr ⟨z, hz, hzn, hKz, .tail h h3⟩
      rcases fwd x hx with h | ⟨z, hz, hzn, hKz, h⟩
      · exact ih a b ha hab (by omega) (by omega) x h hxb
      · have hzb : K z b := ih z b hz (by rintro rfl; omega) (by omega) (by omega) x h hxb
        exact hc a b z ha hbV hz hab (by omega) (by omega) (hKs _ _ hKz) hzb
  exact key M (num v) (by omega) u v hu (by rintro rfl; omega) huv.le le_rfl x hx hxv

end Mcs
end CLPoly
