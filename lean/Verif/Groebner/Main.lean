import Verif.Groebner.SPoly
import Mathlib.Order.WellQuasiOrder
import Mathlib.Data.Finsupp.PWO
import Mathlib.Order.RelIso.Basic
import Mathlib.Order.WellFounded
import Mathlib.Order.OrderIsoNat
import Mathlib.Data.List.GetD

/-! # Invariant and termination of the main loop -/

namespace CLPoly.GB
open CLPoly Mono MvPolynomial

variable {vc : Var → Var → Bool} {mc : Mono → Mono → Bool} {K : Type*} [Field K] [DecidableEq K]
variable {L : Type*} [LinearOrder L] {r : (Var →₀ ℕ) → L} {V : Finset Var}

/-- the pending pairs as items -/
noncomputable def pset (G : List (PV Mono K)) (ps : List CP) : Set (It Var K × It Var K) :=
  {x | ∃ p ∈ ps, x = (toIt (at' G p.i), toIt (at' G p.j))}

/-- the ideal generated by a list of polynomials -/
noncomputable def idealOf (G : List (PV Mono K)) : Ideal (MvPolynomial Var K) := Ideal.span {f | ∃ g ∈ G, f = val g}

theorem idealOf_items (G : List (PV Mono K)) : Ideal.span (It.poly '' items G) = idealOf G := by
  unfold idealOf; congr 1
  ext f
  constructor
  · rintro ⟨_, ⟨g, hg, rfl⟩, rfl⟩; exact ⟨g, hg, rfl⟩
  · rintro ⟨g, hg, rfl⟩; exact ⟨_, ⟨g, hg, rfl⟩, rfl⟩

theorem mem_idealOf {G : List (PV Mono K)} {g : PV Mono K} (h : g ∈ G) : val g ∈ idealOf G := Ideal.subset_span ⟨g, h, rfl⟩

theorem idealOf_le {G : List (PV Mono K)} {I : Ideal (MvPolynomial Var K)} (h : ∀ g ∈ G, val g ∈ I) : idealOf G ≤ I := by
  refine Ideal.span_le.2 ?_
  rintro _ ⟨g, hg, rfl⟩; exact h g hg

theorem below_ideal {G : List (PV Mono K)} {t : L} {f : MvPolynomial Var K} (h : f ∈ below r V (items G) t) : f ∈ idealOf G := by
  have : below r V (items G) t ≤ (idealOf G).restrictScalars K := by
    refine Submodule.span_le.2 ?_
    rintro _ ⟨_, ⟨g, hg, rfl⟩, m, _, _, rfl⟩
    exact Ideal.mul_mem_left _ _ (mem_idealOf hg)
  exact this h

theorem sp_ideal {G : List (PV Mono K)} {f g : PV Mono K} (hf : f ∈ G) (hg : g ∈ G) : sp (toIt f) (toIt g) ∈ idealOf G :=
  Ideal.sub_mem _ (Ideal.mul_mem_left _ _ (mem_idealOf hf)) (Ideal.mul_mem_left _ _ (mem_idealOf hg))

/-- the normal form differs from `h` by an element of the ideal -/
theorem NF.ideal {G : List (PV Mono K)} {h out : PV Mono K} (S : Setup vc mc r) (H : NF vc mc r V G h out) (hh : OKin vc mc V h) :
    val h - val out ∈ idealOf G := by
  rcases h with _ | ⟨t, h⟩
  · obtain ⟨N, hN⟩ := H.run
    have := hN (N + 1) (by omega) []
    rw [nfLoop] at this
    have : out = [] := by simpa using this.symm
    rw [this, sub_self]; exact Ideal.zero_mem _
  · classical
    by_cases hv : ∃ x : (Var →₀ ℕ), r (expo t.1) < r x
    · obtain ⟨x, hx⟩ := hv
      exact below_ideal (H.span (r x) fun y hy => (le_lm S hh hy).trans_lt hx)
    · exfalso
      push Not at hv
      have h1 := hv (expo t.1 + Finsupp.single (Classical.arbitrary Var) 1)
      have h2 := S.hr.dom (expo t.1) (expo t.1 + Finsupp.single (Classical.arbitrary Var) 1) le_self_add
      have h3 := S.hr.inj (le_antisymm h2 h1)
      have h4 := DFunLike.congr_fun h3 (Classical.arbitrary Var)
      rw [Finsupp.add_apply, Finsupp.single_eq_same] at h4
      omega

theorem at_mem {G : List (PV Mono K)} {k : Nat} (h : k < G.length) : at' G k ∈ G := by
  unfold at'; rw [List.getD_eq_getElem _ _ h]; exact List.getElem_mem h

theorem at_append_lt {G : List (PV Mono K)} {h : PV Mono K} {k : Nat} (hk : k < G.length) : at' (G ++ [h]) k = at' G k := by
  unfold at'; rw [List.getD_append _ _ _ _ hk]

theorem at_append_eq {G : List (PV Mono K)} {h : PV Mono K} : at' (G ++ [h]) G.length = h := by
  unfold at'; rw [List.getD_append_right _ _ _ _ le_rfl]; simp

theorem mem_at {G : List (PV Mono K)} {g : PV Mono K} (h : g ∈ G) : ∃ k, k < G.length ∧ at' G k = g := by
  obtain ⟨k, hk, e⟩ := List.getElem_of_mem h
  exact ⟨k, hk, by unfold at'; rw [List.getD_eq_getElem _ _ hk, e]⟩

/-- what the main loop maintains -/
structure Inv (vc : Var → Var → Bool) (mc : Mono → Mono → Bool) (r : (Var →₀ ℕ) → L) (V : Finset Var) (I : Ideal (MvPolynomial Var K)) (st : BSt K) : Prop where
  monic : ∀ g ∈ st.G, Monic vc mc V g
  idx : ∀ p ∈ st.pairs, p.i < st.G.length ∧ p.j < st.G.length
  cov : ∀ a ∈ items st.G, ∀ c ∈ items st.G, sp a c ∈ W r V (items st.G) (pset st.G st.pairs) (r (a.lm ⊔ c.lm))
  span : idealOf st.G = I
  ne : st.G ≠ []

theorem items_append (G : List (PV Mono K)) (h : PV Mono K) : items (G ++ [h]) = insert (toIt h) (items G) := by
  ext b
  constructor
  · rintro ⟨g, hg, rfl⟩
    rcases List.mem_append.1 hg with hg | hg
    · exact .inr ⟨g, hg, rfl⟩
    · rw [List.mem_singleton.1 hg]; exact .inl rfl
  · rintro (rfl | ⟨g, hg, rfl⟩)
    · exact ⟨h, by simp, rfl⟩
    · exact ⟨g, by simp [hg], rfl⟩

theorem minimalNew_mono {G : List (PV Mono K)} {h : PV Mono K} : ∀ {ps : List CP} {acc : List (CP × Mono)} {x : CP × Mono}, x ∈ acc → x ∈ minimalNew vc G h ps acc
  | [], _, _, hx => hx
  | p :: ps, acc, x, hx => by
    rw [minimalNew]
    split
    · exact minimalNew_mono hx
    · exact minimalNew_mono (by simp [hx])

theorem minimalNew_sub {G : List (PV Mono K)} {h : PV Mono K} : ∀ {ps : List CP} {acc : List (CP × Mono)} {x : CP × Mono}, x ∈ minimalNew vc G h ps acc →
    x ∈ acc ∨ (x.1 ∈ ps ∧ x.2 = lcm vc (lm (at' G x.1.i)) (lm h))
  | [], _, _, hx => .inl hx
  | p :: ps, acc, x, hx => by
    rw [minimalNew] at hx
    split at hx
    · rcases minimalNew_sub hx with h | ⟨h, h'⟩
      · exact .inl h
      · exact .inr ⟨by simp [h], h'⟩
    · rcases minimalNew_sub hx with h | ⟨h, h'⟩
      · rcases List.mem_append.1 h with h | h
        · exact .inl h
        · rw [List.mem_singleton.1 h]; exact .inr ⟨by simp, rfl⟩
      · exact .inr ⟨by simp [h], h'⟩

theorem minimalNew_cov {G : List (PV Mono K)} {h : PV Mono K} (hrefl : ∀ m, Valid vc m → (divExact vc m m).isSome = true) :
    ∀ {ps : List CP} {acc : List (CP × Mono)} {p : CP}, (∀ p ∈ ps, Valid vc (lcm vc (lm (at' G p.i)) (lm h))) → p ∈ ps →
    ∃ x ∈ minimalNew vc G h ps acc, (divExact vc (lcm vc (lm (at' G p.i)) (lm h)) x.2).isSome = true
  | p0 :: ps, acc, p, hv, hp => by
    rw [minimalNew]
    rcases List.mem_cons.1 hp with rfl | hp
    · split
      · rename_i hany
        obtain ⟨a, ha, hd⟩ := List.any_eq_true.1 hany
        exact ⟨a, minimalNew_mono ha, hd⟩
      · exact ⟨(p, lcm vc (lm (at' G p.i)) (lm h)), minimalNew_mono (by simp), hrefl _ (hv p (by simp))⟩
    · split
      · exact minimalNew_cov hrefl (fun q hq => hv q (by simp [hq])) hp
      · exact minimalNew_cov hrefl (fun q hq => hv q (by simp [hq])) hp

/-- `__update` keeps the S-polynomials covered -/
theorem update_inv (S : Setup vc mc r) {I : Ideal (MvPolynomial Var K)} {sort : List CP → List CP} (hsort : ∀ l, (sort l).Perm l)
    {st : BSt K} {h : PV Mono K} {hs : Int}
    (hG : ∀ g ∈ st.G, Monic vc mc V g) (hh : Monic vc mc V h) (hidx : ∀ p ∈ st.pairs, p.i < st.G.length ∧ p.j < st.G.length)
    (old : ∀ a ∈ items st.G, ∀ c ∈ items st.G, sp a c ∈ W r V (insert (toIt h) (items st.G)) (pset st.G st.pairs) (r (a.lm ⊔ c.lm)))
    (hI : idealOf (st.G ++ [h]) = I) : Inv vc mc r V I (update vc sort st h hs) := by
  have ho := S.M.vo
  have vlm : ∀ {g : PV Mono K}, Monic vc mc V g → Valid vc (lm g) := fun hg => (hg.okin.lm_valid hg.ne).1
  have vat : ∀ {k}, k < st.G.length → Valid vc (lm (at' st.G k)) := fun hk => vlm (hG _ (at_mem hk))
  obtain ⟨np, hnp⟩ : ∃ np, np = sort (newPairs vc st.G st.sugar h hs) := ⟨_, rfl⟩
  have npmem : ∀ p, p ∈ np ↔ ∃ k, k < st.G.length ∧ p = ⟨k, st.G.length, max (st.sugar.getD k 0 + (lcm vc (lm (at' st.G k)) (lm h)).deg - (lm (at' st.G k)).deg) (hs + (lcm vc (lm (at' st.G k)) (lm h)).deg - (lm h).deg), (lcm vc (lm (at' st.G k)) (lm h)).deg⟩ := by
    intro p
    rw [hnp, (hsort _).mem_iff]
    unfold newPairs
    simp only [List.mem_map, List.mem_range]
    constructor
    · rintro ⟨k, hk, rfl⟩; exact ⟨k, hk, rfl⟩
    · rintro ⟨k, hk, rfl⟩; exact ⟨k, hk, rfl⟩
  have npi : ∀ p ∈ np, p.i < st.G.length ∧ p.j = st.G.length := by
    intro p hp
    obtain ⟨k, hk, rfl⟩ := (npmem p).1 hp
    exact ⟨hk, rfl⟩
  obtain ⟨mn, hmn⟩ : ∃ mn, mn = minimalNew vc st.G h np [] := ⟨_, rfl⟩
  have mnmem : ∀ x ∈ mn, x.1 ∈ np ∧ x.2 = lcm vc (lm (at' st.G x.1.i)) (lm h) := by
    intro x hx
    rw [hmn] at hx
    rcases minimalNew_sub hx with h | h
    · cases h
    · exact h
  obtain ⟨fin, hfin⟩ : ∃ fin, fin = (mn.map Prod.fst).filter fun p => decide ((gcd vc (lm (at' st.G p.i)) (lm h)).deg ≠ 0) := ⟨_, rfl⟩
  have finmem : ∀ p ∈ fin, p.i < st.G.length ∧ p.j = st.G.length := by
    intro p hp
    rw [hfin] at hp
    obtain ⟨x, hx, rfl⟩ := List.mem_map.1 (List.mem_filter.1 hp).1
    exact npi _ (mnmem x hx).1
  have hup : update vc sort st h hs = ⟨st.G ++ [h], st.pairs.filter (keepOld vc st.G h) ++ fin, st.sugar ++ [hs]⟩ := by
    rw [hfin, hmn, hnp]; rfl
  have keptmem : ∀ p ∈ st.pairs.filter (keepOld vc st.G h), p ∈ st.pairs := fun p hp => (List.mem_filter.1 hp).1
  rw [hup]
  have monic' : ∀ g ∈ st.G ++ [h], Monic vc mc V g := by
    intro g hg
    rcases List.mem_append.1 hg with hg | hg
    · exact hG g hg
    · rw [List.mem_singleton.1 hg]; exact hh
  refine ⟨monic', ?_, ?_, hI, by simp⟩
  · intro p hp
    show _ < (st.G ++ [h]).length ∧ _ < (st.G ++ [h]).length
    rw [List.length_append, List.length_singleton]
    rcases List.mem_append.1 hp with hp | hp
    · have := hidx p (keptmem p hp); omega
    · have := finmem p hp; omega
  · show ∀ a ∈ items (st.G ++ [h]), ∀ c ∈ items (st.G ++ [h]), _ ∈ W r V (items (st.G ++ [h])) (pset (st.G ++ [h]) (st.pairs.filter (keepOld vc st.G h) ++ fin)) _
    rw [items_append]
    refine update_covers S.hr (B := items st.G) (P := pset st.G st.pairs) ?_ (hh.toIt S) ?_ old ?_ ?_
    · rintro _ ⟨g, hg, rfl⟩; exact (hG g hg).toIt S
    · rintro _ ⟨p, hp, rfl⟩
      have := hidx p hp
      exact ⟨⟨_, at_mem this.1, rfl⟩, ⟨_, at_mem this.2, rfl⟩⟩
    · rintro _ ⟨p, hp, rfl⟩
      have hi := hidx p hp
      by_cases hk : keepOld vc st.G h p = true
      · left
        refine ⟨p, List.mem_append_left _ (List.mem_filter.2 ⟨hp, hk⟩), ?_⟩
        rw [at_append_lt hi.1, at_append_lt hi.2]
      · right
        unfold keepOld at hk
        dsimp only at hk
        have v1 := vat hi.1
        have v2 := vat hi.2
        have vL := (C14_lcm vc ho _ _ v1 v2).1
        have e1 : Mono.lcm vc (lm (at' st.G p.i)) (lm (at' st.G p.j)) = Mono.lcm vc (lm (at' st.G p.i)) (lm (at' st.G p.j)) := rfl
        split at hk
        · rename_i hd
          split at hk
          · rename_i hne
            have h1 := (isSome_divExact ho vL (vlm hh)).1 hd
            rw [expo_lcm ho v1 v2] at h1
            refine ⟨h1, ?_, ?_⟩
            · intro he
              refine hne.1 (expo_inj ho (C14_lcm vc ho _ _ v1 (vlm hh)).1 vL ?_)
              rw [expo_lcm ho v1 (vlm hh), expo_lcm ho v1 v2]; exact he
            · intro he
              refine hne.2 (expo_inj ho (C14_lcm vc ho _ _ (vlm hh) v2).1 vL ?_)
              rw [expo_lcm ho (vlm hh) v2, expo_lcm ho v1 v2]; exact he
          · exact absurd rfl hk
        · exact absurd rfl hk
    · rintro _ ⟨g, hg, rfl⟩
      obtain ⟨k, hk, rfl⟩ := mem_at hg
      have hp := (npmem _).2 ⟨k, hk, rfl⟩
      have vl : ∀ p ∈ np, Valid vc (lcm vc (lm (at' st.G p.i)) (lm h)) := fun p hp =>
        (C14_lcm vc ho _ _ (vat (npi p hp).1) (vlm hh)).1
      obtain ⟨x, hx, hd⟩ := minimalNew_cov (vc := vc) (G := st.G) (h := h) (acc := [])
        (fun m hm => (isSome_divExact ho hm hm).2 le_rfl) vl hp
      rw [← hmn] at hx
      obtain ⟨hx1, hx2⟩ := mnmem x hx
      have hxi := npi _ hx1
      refine ⟨toIt (at' st.G x.1.i), ⟨_, at_mem hxi.1, rfl⟩, ?_, ?_⟩
      · have := (isSome_divExact ho (vl _ hp) (hx2 ▸ vl _ hx1)).1 hd
        rw [hx2, expo_lcm ho (vat hxi.1) (vlm hh)] at this
        refine this.trans ?_
        show expo (lcm vc (lm (at' st.G k)) (lm h)) ≤ _
        rw [expo_lcm ho (vat hk) (vlm hh)]; rfl
      · by_cases hg0 : (gcd vc (lm (at' st.G x.1.i)) (lm h)).deg = 0
        · right
          have := (deg_eq_zero (C14_gcd vc ho _ _ (vat hxi.1) (vlm hh)).1).1 hg0
          rw [expo_gcd ho (vat hxi.1) (vlm hh)] at this
          exact this
        · left
          refine ⟨x.1, List.mem_append_right _ ?_, ?_⟩
          · rw [hfin, List.mem_filter]
            exact ⟨List.mem_map.2 ⟨x, hx, rfl⟩, by simpa using hg0⟩
          · rw [at_append_lt hxi.1, hxi.2, at_append_eq]

/-! ## termination -/

/-- a new leading exponent that is divisible by no old one -/
def Grow (V : Finset Var) (l' l : List (Var →₀ ℕ)) : Prop := ∃ x : Var →₀ ℕ, x.support ⊆ V ∧ l' = l ++ [x] ∧ ∀ y ∈ l, ¬ y ≤ x

/-- Dickson's lemma -/
theorem grow_wf (V : Finset Var) : WellFounded (Grow V) := by
  rw [wellFounded_iff_isEmpty_descending_chain]
  refine ⟨fun ⟨f, hf⟩ => ?_⟩
  choose x hx1 hx2 hx3 using hf
  have hin : ∀ i j, i < j → x i ∈ f j := by
    intro i j hij
    induction j with
    | zero => omega
    | succ j ih =>
      rw [hx2 j]
      rcases Nat.lt_or_ge i j with h | h
      · exact List.mem_append_left _ (ih h)
      · rw [show i = j by omega]; simp
  have wq : @WellQuasiOrdered (V →₀ ℕ) (· ≤ ·) := wellQuasiOrdered_le
  obtain ⟨i, j, hij, hle⟩ := wq fun n => (x n).comapDomain (fun v : V => v.1) (Subtype.val_injective.injOn)
  refine hx3 j (x i) (hin i j hij) fun v => ?_
  by_cases hv : v ∈ V
  · exact hle ⟨v, hv⟩
  · have : x i v = 0 := by
      by_contra h0
      exact hv (hx1 i (Finsupp.mem_support_iff.2 h0))
    rw [this]; exact Nat.zero_le _

theorem minElem_mem (c : CP) (cs : List CP) : minElem c cs ∈ c :: cs := by
  induction cs generalizing c with
  | nil => simp [minElem]
  | cons x xs ih =>
    rw [minElem]
    have := ih (if cpLt x c then x else c)
    split at this <;> rename_i h
    · simp only [h, if_true]; simp at this ⊢; tauto
    · rw [if_neg h]; simp at this ⊢; tauto

/-- the leading exponents -/
noncomputable def lms (G : List (PV Mono K)) : List (Var →₀ ℕ) := G.map fun g => expo (lm g)

theorem nf_lead (S : Setup vc mc r) {G : List (PV Mono K)} {h out : PV Mono K} (H : NF vc mc r V G h out) (t : L)
    (hh : OKin vc mc V h) (hlt : ∀ x ∈ h, r (expo x.1) < t) : ∀ x ∈ out, r (expo x.1) < t := by
  rcases h with _ | ⟨u, h⟩
  · obtain ⟨N, hN⟩ := H.run
    have := hN (N + 1) (by omega) []
    rw [nfLoop] at this
    have : out = [] := by simpa using this.symm
    rw [this]; simp
  · intro x hx
    by_contra hc
    rw [not_lt] at hc
    have : Below mc x.1 out := H.lead x.1 (H.ok.ok.monos x hx) fun y hy =>
      (S.hrm _ _ (H.ok.ok.monos x hx) (hh.ok.monos y hy)).2 ((hlt y hy).trans_le hc)
    have := this x hx
    rw [S.M.lawful.irrefl _ (H.ok.ok.monos x hx)] at this
    cases this

/-- the main loop terminates, with all S-polynomials reduced -/
theorem mainLoop_spec (S : Setup vc mc r) {I : Ideal (MvPolynomial Var K)} {sort : List CP → List CP} (hsort : ∀ l, (sort l).Perm l)
    (st : BSt K) (h : Inv vc mc r V I st) :
    ∃ st', (∃ N, ∀ n ≥ N, mainLoop vc mc (· / ·) sort n st = some (.ok st')) ∧ Inv vc mc r V I st' ∧ st'.pairs = [] := by
  obtain ⟨l, hl⟩ : ∃ l, l = lms st.G := ⟨_, rfl⟩
  induction l using (grow_wf V).induction generalizing st with
  | _ l ih =>
  obtain ⟨k, hk⟩ : ∃ k, k = st.pairs.length := ⟨_, rfl⟩
  induction k generalizing st with
  | zero =>
    have hp : st.pairs = [] := List.length_eq_zero_iff.1 hk.symm
    refine ⟨st, ⟨1, fun n hn => ?_⟩, h, hp⟩
    obtain ⟨m, rfl⟩ : ∃ m, n = m + 1 := ⟨n - 1, by omega⟩
    rw [mainLoop]; simp only [hp]
  | succ k ihk =>
    obtain ⟨c, cs, hp⟩ : ∃ c cs, st.pairs = c :: cs := by
      cases hp : st.pairs with
      | nil => rw [hp] at hk; simp at hk
      | cons c cs => exact ⟨c, cs, rfl⟩
    obtain ⟨cp, hcp⟩ : ∃ cp, cp = minElem c cs := ⟨_, rfl⟩
    have hmem : cp ∈ st.pairs := by rw [hcp, hp]; exact minElem_mem c cs
    have hi := h.idx cp hmem
    have mi := h.monic _ (at_mem hi.1)
    have mj := h.monic _ (at_mem hi.2)
    obtain ⟨okS, vS, ltS⟩ := sPoly_spec S mi mj
    obtain ⟨out, H⟩ := nf_exists S.M S.hr S.hrm (fun g hg => ⟨(h.monic g hg).okin, (h.monic g hg).ne⟩) _ okS
    obtain ⟨N, hN⟩ := H.sugar h.ne
    have hsp := H.span _ ltS
    rw [vS] at hsp
    have erase_sub : ∀ p ∈ st.pairs.erase cp, p ∈ st.pairs := fun p hp => List.mem_of_mem_erase hp
    have mem_erase : ∀ p ∈ st.pairs, p = cp ∨ p ∈ st.pairs.erase cp := fun p hp => by
      by_cases e : p = cp
      · exact .inl e
      · exact .inr ((List.mem_erase_of_ne e).2 hp)
    by_cases h0 : out = []
    · subst h0
      rw [val_nil, sub_zero] at hsp
      have inv' : Inv vc mc r V I { st with pairs := st.pairs.erase cp } := by
        refine ⟨h.monic, fun p hp => h.idx p (erase_sub p hp), ?_, h.span, h.ne⟩
        intro a ha b hb
        refine W_drop S.hr (B := items st.G) (P := pset st.G st.pairs) subset_rfl ?_ _ (h.cov a ha b hb)
        rintro _ ⟨p, hp, rfl⟩
        rcases mem_erase p hp with rfl | hp
        · right; exact below_le_W hsp
        · left; exact ⟨p, hp, rfl⟩
      obtain ⟨st', ⟨N', hN'⟩, i', p'⟩ := ihk { st with pairs := st.pairs.erase cp } inv' hl (by
        show k = (st.pairs.erase cp).length
        rw [List.length_erase_of_mem hmem]; omega)
      refine ⟨st', ⟨N + N' + 1, fun n hn => ?_⟩, i', p'⟩
      obtain ⟨m, rfl⟩ : ∃ m, n = m + 1 := ⟨n - 1, by omega⟩
      rw [mainLoop]
      obtain ⟨s', hs'⟩ := hN m (by omega) st.sugar cp.sugar
      simp only [hp, ← hcp] at hN' ⊢
      rw [hs']
      simp only [if_true]
      exact hN' m (by omega)
    · obtain ⟨mm, mlm, mval, mc0⟩ := makeMonic_spec H.ok h0
      have hle := nf_lead S H _ okS ltS
      have hlmv := H.ok.lm_valid h0
      have lmlt : r (expo (lm out)) < r (expo (lm (at' st.G cp.i)) ⊔ expo (lm (at' st.G cp.j))) := by
        cases out with
        | nil => exact absurd rfl h0
        | cons t o => exact hle t (by simp)
      have vout : val out = C (lc out) * val (makeMonic (· / ·) out) := by
        rw [mval, ← mul_assoc, ← C_mul, mul_inv_cancel₀ mc0, C_1, one_mul]
      have hnd : ∀ g ∈ st.G, ¬ expo (lm g) ≤ expo (lm (makeMonic (· / ·) out)) := by
        intro g hg
        rw [mlm]
        rw [← divExact_none S.M.vo hlmv.1 ((h.monic g hg).okin.lm_valid (h.monic g hg).ne).1]
        cases out with
        | nil => exact absurd rfl h0
        | cons t o => exact H.reduced t (by simp) g hg
      have inv' : ∀ hs, Inv vc mc r V I (update vc sort { st with pairs := st.pairs.erase cp } (makeMonic (· / ·) out) hs) := by
        intro hs
        refine update_inv S hsort h.monic mm (fun p hp => h.idx p (erase_sub p hp)) ?_ ?_
        · intro a ha b hb
          refine W_drop S.hr (B := items st.G) (P := pset st.G st.pairs) (Set.subset_insert _ _) ?_ _ (h.cov a ha b hb)
          rintro _ ⟨p, hp, rfl⟩
          rcases mem_erase p hp with rfl | hp
          · right
            refine below_le_W ?_
            have h1 := below_mono_set (r := r) (V := V) (Set.subset_insert (toIt (makeMonic (· / ·) out)) (items st.G)) _ hsp
            have h2 : val out ∈ below r V (insert (toIt (makeMonic (· / ·) out)) (items st.G)) (r (expo (lm (at' st.G p.i)) ⊔ expo (lm (at' st.G p.j)))) := by
              rw [vout, ← smul_eq_C_mul]
              refine Submodule.smul_mem _ _ (Submodule.subset_span ⟨_, Set.mem_insert _ _, 0, by simp, ?_, ?_⟩)
              · show r (0 + expo (lm (makeMonic (· / ·) out))) < _
                rw [zero_add, mlm]; exact lmlt
              · show _ = monomial 0 1 * val (makeMonic (· / ·) out)
                rw [monomial_zero', C_1, one_mul]
            have := Submodule.add_mem _ h1 h2
            rwa [sub_add_cancel] at this
          · left; exact ⟨p, hp, rfl⟩
        · show idealOf (st.G ++ [makeMonic (· / ·) out]) = I
          rw [← h.span]
          refine le_antisymm (idealOf_le ?_) (idealOf_le ?_)
          · intro g hg
            rcases List.mem_append.1 hg with hg | hg
            · exact mem_idealOf hg
            · rw [List.mem_singleton.1 hg, mval]
              refine Ideal.mul_mem_left _ _ ?_
              have h1 := H.ideal S okS
              rw [vS] at h1
              have h2 := sp_ideal (at_mem hi.1) (at_mem hi.2)
              have := Ideal.sub_mem _ h2 h1
              rwa [sub_sub_cancel] at this
          · intro g hg; exact mem_idealOf (by simp [hg])
      have hrec : ∀ hs, ∃ st', (∃ N, ∀ n ≥ N, mainLoop vc mc (· / ·) sort n (update vc sort { st with pairs := st.pairs.erase cp } (makeMonic (· / ·) out) hs) = some (.ok st')) ∧ Inv vc mc r V I st' ∧ st'.pairs = [] := by
        intro hs
        refine ih (lms (st.G ++ [makeMonic (· / ·) out])) ?_ _ (inv' hs) rfl
        rw [hl]
        refine ⟨expo (lm (makeMonic (· / ·) out)), ?_, by unfold lms; simp, ?_⟩
        · rw [mlm]; exact (validIn_iff S.M.vo hlmv.1).1 hlmv
        · intro y hy
          obtain ⟨g, hg, rfl⟩ := List.mem_map.1 hy
          exact hnd g hg
      -- the sugar does not depend on the fuel
      obtain ⟨s0, hs0⟩ : ∃ s0, ∀ m ≥ N, nfSugar vc mc (· / ·) m (sPoly vc mc (· / ·) (at' st.G cp.i) (at' st.G cp.j)) st.G st.sugar cp.sugar = some (.ok (out, s0)) := by
        obtain ⟨s0, hs0⟩ := hN N le_rfl st.sugar cp.sugar
        exact ⟨s0, fun m hm => nfSugar_mono hm hs0⟩
      obtain ⟨st', ⟨N', hN'⟩, i', p'⟩ := hrec s0
      refine ⟨st', ⟨N + N' + 1, fun n hn => ?_⟩, i', p'⟩
      obtain ⟨m, rfl⟩ : ∃ m, n = m + 1 := ⟨n - 1, by omega⟩
      rw [mainLoop]
      simp only [hp, ← hcp] at hN' ⊢
      rw [hs0 m (by omega)]
      simp only [if_neg h0]
      exact hN' m (by omega)

end CLPoly.GB
