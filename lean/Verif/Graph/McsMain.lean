import Verif.Graph.McsSpec

/-! # `chordal_completion`: the result of `__MCS_M` -/

namespace CLPoly
open Relation Mcs

/-- the run of `__MCS_M` as a sequence of states -/
structure MRun (R : ℕ → ℕ → Bool) (G : List (List ℕ)) (s : ℕ → MState) (us : ℕ → ℕ) : Prop where
  run : ∀ t ≤ G.length, mcsmRun G.length R G t = some (s t)
  inv : ∀ t ≤ G.length, OInv G G.length t (s t)
  step : ∀ t < G.length, OStep G.length (G.length - t) t (s t) (s (t + 1)) (us t)
  init : ∀ v, (s 0).num v = 0
  w0 : ∀ v, (s 0).w v = 0
  pick : ∀ t < G.length, us t = mcsPick G.length (s t).w (s t).num (R t)

theorem mrun_exists (R : ℕ → ℕ → Bool) {G : List (List ℕ)} (hsort : ∀ l ∈ G, l.Pairwise (· < ·)) (hs : ∀ a b, AdjIdx G a b → AdjIdx G b a)
    (hlt : ∀ a b, AdjIdx G a b → b < G.length) : ∃ s us, MRun R G s us := by
  have hrec : ∀ t, mcsmRun G.length R G (t + 1) = (mcsmRun G.length R G t).bind fun st => mcsmStep G.length (R t) (G.length - t) st := by
    intro t
    unfold mcsmRun
    rw [List.range_succ, List.foldlM_append]
    show Option.bind _ _ = _
    congr 1
    funext st
    rw [List.foldlM_cons]
    show Option.bind _ _ = _
    simp
  have key : ∀ t ≤ G.length, ∃ st, mcsmRun G.length R G t = some st ∧ OInv G G.length t st := by
    intro t
    induction t with
    | zero =>
      intro _
      exact ⟨_, rfl, ⟨rfl, by simp, by simp, by simp, rfl, hsort, hs, hlt, fun _ _ _ _ => Iff.rfl, by simp⟩⟩
    | succ t ih =>
      intro ht
      obtain ⟨st, e, I⟩ := ih (by omega)
      obtain ⟨st', u, e', _, I', _⟩ := mcsmStep_spec I (by omega) (R t)
      exact ⟨st', by rw [hrec, e]; exact e', I'⟩
  have key' : ∀ t, ∃ st, t ≤ G.length → mcsmRun G.length R G t = some st ∧ OInv G G.length t st := by
    intro t
    by_cases h : t ≤ G.length
    · obtain ⟨st, h'⟩ := key t h; exact ⟨st, fun _ => h'⟩
    · exact ⟨⟨[], fun _ => 0, fun _ => 0, []⟩, fun h' => absurd h' h⟩
  choose s hsr using key'
  have step' : ∀ t, ∃ u, t < G.length → OStep G.length (G.length - t) t (s t) (s (t + 1)) u ∧ u = mcsPick G.length (s t).w (s t).num (R t) := by
    intro t
    by_cases h : t < G.length
    · obtain ⟨e, I⟩ := hsr t h.le
      obtain ⟨st', u, e', S, _, hp⟩ := mcsmStep_spec I h (R t)
      have e2 := (hsr (t + 1) h).1
      rw [hrec, e] at e2
      have e3 : some st' = some (s (t + 1)) := e'.symm.trans e2
      simp only [Option.some.injEq] at e3
      exact ⟨u, fun _ => ⟨e3 ▸ S, hp⟩⟩
    · exact ⟨0, fun h' => absurd h' h⟩
  choose us hus using step'
  refine ⟨s, us, ⟨fun t h => (hsr t h).1, fun t h => (hsr t h).2, fun t h => (hus t h).1, ?_, ?_, fun t h => (hus t h).2⟩⟩
  all_goals
  intro v
  have h0 := (hsr 0 (by omega)).1
  have h1 : mcsmRun G.length R G 0 = some ⟨G, fun _ => 0, fun _ => 0, []⟩ := rfl
  rw [h1] at h0
  simp only [Option.some.injEq] at h0
  rw [← h0]

section
variable {R : ℕ → ℕ → Bool} {G : List (List ℕ)} {s : ℕ → MState} {us : ℕ → ℕ}

/-- the time at which a node is numbered -/
def timeOf (G : List (List ℕ)) (s : ℕ → MState) (v : ℕ) : ℕ := G.length - (s G.length).num v

theorem MRun.num_later (M : MRun R G s us) {τ t : ℕ} (hτ : τ < t) (ht : t ≤ G.length) : (s t).num (us τ) = G.length - τ := by
  induction t with
  | zero => omega
  | succ t ih =>
    have S := M.step t (by omega)
    rw [S.num]
    by_cases e : τ = t
    · subst e; simp
    · have ih := ih (by omega) (by omega)
      have hne : us τ ≠ us t := by
        intro e'
        have := S.unum
        rw [← e', ih] at this
        omega
      rw [Function.update_of_ne hne, ih]

theorem MRun.num_ne (M : MRun R G s us) {v t : ℕ} (ht : t ≤ G.length) (h : (s t).num v ≠ 0) : ∃ τ < t, us τ = v := by
  induction t with
  | zero => exact absurd (M.init v) h
  | succ t ih =>
    have S := M.step t (by omega)
    rw [S.num] at h
    by_cases e : v = us t
    · exact ⟨t, by omega, e.symm⟩
    · rw [Function.update_of_ne e] at h
      obtain ⟨τ, hτ, e'⟩ := ih (by omega) h
      exact ⟨τ, by omega, e'⟩

theorem MRun.time_us (M : MRun R G s us) {τ : ℕ} (h : τ < G.length) : timeOf G s (us τ) = τ := by
  unfold timeOf
  rw [M.num_later h le_rfl]; omega

theorem MRun.us_time (M : MRun R G s us) {v : ℕ} (hv : v < G.length) : timeOf G s v < G.length ∧ us (timeOf G s v) = v := by
  have I := M.inv G.length le_rfl
  have hm := all_numbered I.lnodup I.llt I.llen v hv
  obtain ⟨τ, hτ, rfl⟩ := M.num_ne le_rfl (fun h0 => (I.num_iff v).1 h0 hm)
  rw [M.time_us hτ]
  exact ⟨hτ, rfl⟩

theorem MRun.num_zero (M : MRun R G s us) {v t : ℕ} (hv : v < G.length) (ht : t ≤ G.length) : (s t).num v = 0 ↔ t ≤ timeOf G s v := by
  obtain ⟨h1, h2⟩ := M.us_time hv
  constructor
  · intro h
    by_contra hc
    have := M.num_later (τ := timeOf G s v) (t := t) (by omega) ht
    rw [h2, h] at this
    omega
  · intro h
    by_contra hc
    obtain ⟨τ, hτ, e⟩ := M.num_ne ht hc
    have := M.time_us (τ := τ) (by omega)
    rw [e] at this
    omega

/-- the search of the round that numbers `u` is the abstract one -/
theorem MRun.fill_iff (M : MRun R G s us) (hlt : ∀ a b, AdjIdx G a b → b < G.length) {t v : ℕ} (ht : t < G.length) (hvt : t < timeOf G s v) :
    SFill (s t).g (s t).w (s (t + 1)).num (us t) v ↔ Fill (AdjIdx G) (timeOf G s) (fun t v => (s t).w v) t (us t) v := by
  have I := M.inv t ht.le
  have S := M.step t ht
  have hadj : ∀ a b, (s t).num a = 0 → b < G.length → t < timeOf G s b → (AdjIdx (s t).g a b ↔ AdjIdx G a b) := by
    intro a b ha hb htb
    exact I.same a b ha ((M.num_zero hb ht.le).2 htb.le)
  have hnum : ∀ b < G.length, ((s (t + 1)).num b = 0 ↔ t < timeOf G s b) := fun b hb => M.num_zero hb ht
  have h1 : ∀ c x, ReflTransGen (SLow (s t).g (s t).w (s (t + 1)).num c) (us t) x →
      (s t).num x = 0 ∧ ReflTransGen (Low (AdjIdx G) (timeOf G s) (fun t v => (s t).w v) t c) (us t) x := by
    intro c x hx
    induction hx with
    | refl => exact ⟨S.unum, .refl⟩
    | @tail x y h1 h2 ih =>
      have hy := I.lt _ _ h2.1
      have hty := (hnum y hy).1 h2.2.1
      exact ⟨(M.num_zero hy ht.le).2 hty.le, .tail ih.2 ⟨(hadj x y ih.1 hy hty).1 h2.1, hty, h2.2.2⟩⟩
  have h2 : ∀ c x, ReflTransGen (Low (AdjIdx G) (timeOf G s) (fun t v => (s t).w v) t c) (us t) x →
      (s t).num x = 0 ∧ ReflTransGen (SLow (s t).g (s t).w (s (t + 1)).num c) (us t) x := by
    intro c x hx
    induction hx with
    | refl => exact ⟨S.unum, .refl⟩
    | @tail x y h1 h2 ih =>
      have hy := hlt _ _ h2.1
      exact ⟨(M.num_zero hy ht.le).2 h2.2.1.le, .tail ih.2 ⟨(hadj x y ih.1 hy h2.2.1).2 h2.1, (hnum y hy).2 h2.2.1, h2.2.2⟩⟩
  constructor
  · rintro ⟨x, hx, hxv⟩
    obtain ⟨a, b⟩ := h1 _ x hx
    exact ⟨x, b, (hadj x v a (I.lt _ _ hxv) hvt).1 hxv⟩
  · rintro ⟨x, hx, hxv⟩
    obtain ⟨a, b⟩ := h2 _ x hx
    exact ⟨x, b, (hadj x v a (hlt _ _ hxv) hvt).2 hxv⟩

theorem MRun.trace (M : MRun R G s us) (hs : ∀ a b, AdjIdx G a b → AdjIdx G b a) (hlt : ∀ a b, AdjIdx G a b → b < G.length) :
    Trace (AdjIdx G) (fun v => v < G.length) (timeOf G s) (fun t v => (s t).w v) := by
  refine ⟨hs, fun a b h => ⟨hlt _ _ (hs _ _ h), hlt _ _ h⟩, ?_, ?_, ?_, ?_, ?_⟩
  · intro u v hu hv huv
    obtain ⟨h1, h2⟩ := M.us_time hu
    have := (M.step _ h1).sel v hv ((M.num_zero hv h1.le).2 huv)
    rw [h2] at this
    exact this
  · intro u v hu hv huv hf
    obtain ⟨h1, h2⟩ := M.us_time hu
    have hf' := (M.fill_iff hlt h1 huv).2 (by rw [h2]; exact hf)
    exact (M.step _ h1).w_fill v hv ((M.num_zero hv h1).2 huv) hf'
  · intro u v hu hv huv hf
    obtain ⟨h1, h2⟩ := M.us_time hu
    exact (M.step _ h1).w_not v hv ((M.num_zero hv h1).2 huv) fun h => hf (by
      have := (M.fill_iff hlt h1 huv).1 h
      rwa [h2] at this)
  · intro u v hu hv e
    rw [← (M.us_time hu).2, ← (M.us_time hv).2, e]
  · intro v t hv ht
    have := (M.us_time hv).1
    have ht' : t < G.length := by omega
    exact ⟨us t, (M.step t ht').ult, M.time_us ht'⟩

/-- the edges of the result -/
theorem MRun.final_edge (M : MRun R G s us) (hlt : ∀ a b, AdjIdx G a b → b < G.length) {a b : ℕ} (ha : a < G.length) (hb : b < G.length)
    (hab : timeOf G s a < timeOf G s b) :
    AdjIdx (s G.length).g a b ↔ Fill (AdjIdx G) (timeOf G s) (fun t v => (s t).w v) (timeOf G s a) a b := by
  obtain ⟨h1, h2⟩ := M.us_time ha
  have later : ∀ k, timeOf G s a + 1 + k ≤ G.length → (AdjIdx (s (timeOf G s a + 1 + k)).g a b ↔ AdjIdx (s (timeOf G s a + 1)).g a b) := by
    intro k
    induction k with
    | zero => intro _; exact Iff.rfl
    | succ k ih =>
      intro hk
      have S := M.step (timeOf G s a + 1 + k) (by omega)
      have hna : ∀ m, timeOf G s a < m → m ≤ G.length → (s m).num a ≠ 0 := fun m hm hm' h0 => by
        have := (M.num_zero ha hm').1 h0; omega
      have hau : a ≠ us (timeOf G s a + 1 + k) := by
        intro e
        have := S.unum
        rw [← e] at this
        exact hna _ (by omega) (by omega) this
      rw [← ih (by omega)]
      show AdjIdx (s (timeOf G s a + 1 + k + 1)).g a b ↔ _
      rw [S.edge]
      constructor
      · rintro (h | ⟨h, _⟩ | ⟨_, h, _⟩)
        · exact h
        · exact absurd h hau
        · exact absurd h (hna _ (by omega) (by omega))
      · exact .inl
  have e := later (G.length - (timeOf G s a + 1)) (by omega)
  rw [Nat.add_sub_cancel' (by omega : timeOf G s a + 1 ≤ G.length)] at e
  rw [e]
  have S := M.step _ h1
  have I := M.inv _ h1.le
  have hfe := M.fill_iff hlt h1 hab
  rw [S.edge, hfe, h2]
  have ha0 : (s (timeOf G s a)).num a = 0 := (M.num_zero ha h1.le).2 le_rfl
  have hb0 : (s (timeOf G s a)).num b = 0 := (M.num_zero hb h1.le).2 hab.le
  rw [I.same a b ha0 hb0]
  constructor
  · rintro (h | ⟨_, _, _, h⟩ | ⟨h, _⟩)
    · exact ⟨a, .refl, h⟩
    · exact h
    · rw [h] at hab; omega
  · intro h
    exact .inr (.inl ⟨rfl, (M.num_zero hb h1).2 hab, hb, h⟩)

theorem MRun.final_loop (M : MRun R G s us) {a : ℕ} (ha : a < G.length) : AdjIdx (s G.length).g a a ↔ AdjIdx G a a := by
  have : ∀ t ≤ G.length, AdjIdx (s t).g a a ↔ AdjIdx G a a := by
    intro t
    induction t with
    | zero =>
      intro h
      exact (M.inv 0 h).same a a (M.init a) (M.init a)
    | succ t ih =>
      intro ht
      have S := M.step t (by omega)
      rw [S.edge, ih (by omega)]
      have hne : a = us t → (s (t + 1)).num a ≠ 0 := by
        rintro rfl
        rw [M.num_later (by omega) ht]; omega
      constructor
      · rintro (h | ⟨h, h', _⟩ | ⟨h, h', _⟩)
        · exact h
        · exact absurd h' (hne h)
        · exact absurd h' (hne h)
      · exact .inl
  exact this _ le_rfl

theorem MRun.order (M : MRun R G s us) (t : ℕ) (ht : t ≤ G.length) : (s t).l.Pairwise (fun a b => timeOf G s b < timeOf G s a) := by
  induction t with
  | zero =>
    have := (M.inv 0 ht).llen
    rw [List.length_eq_zero_iff] at this
    rw [this]; exact List.Pairwise.nil
  | succ t ih =>
    have S := M.step t (by omega)
    rw [S.l]
    refine List.pairwise_cons.2 ⟨fun a ha => ?_, ih (by omega)⟩
    have I := M.inv t (by omega)
    rw [M.time_us (by omega)]
    by_contra hc
    exact (I.num_iff a).1 ((M.num_zero (I.llt a ha) (by omega)).2 (by omega)) ha

end

/-- `__MCS_M` on an undirected graph, for every outcome of the coin tosses: it terminates, returns an ordering of all nodes, the graph it
produces contains the given one, the ordering is a perfect elimination ordering of it, and it is the least such graph -/
theorem mcsM_spec (R : ℕ → ℕ → Bool) {G : List (List ℕ)} (hsort : ∀ l ∈ G, l.Pairwise (· < ·)) (hs : ∀ a b, AdjIdx G a b → AdjIdx G b a)
    (hlt : ∀ a b, AdjIdx G a b → b < G.length) :
    ∃ g' l, mcsM R G = some (g', l) ∧ l.Nodup ∧ (∀ v, v ∈ l ↔ v < G.length) ∧ g'.length = G.length ∧ (∀ l ∈ g', l.Pairwise (· < ·)) ∧
      (∀ a b, AdjIdx g' a b → AdjIdx g' b a) ∧ (∀ a b, AdjIdx g' a b → b < G.length) ∧ (∀ a b, AdjIdx G a b → AdjIdx g' a b) ∧
      PerfectElim (fun i => i < G.length) (AdjIdx g') l ∧
      ∀ K : ℕ → ℕ → Prop, (∀ a b, AdjIdx G a b → K a b) → (∀ a b, K a b → K b a) → PerfectElim (fun i => i < G.length) K l → ∀ a b, AdjIdx g' a b → K a b := by
  obtain ⟨s, us, M⟩ := mrun_exists R hsort hs hlt
  have I := M.inv G.length le_rfl
  have T := M.trace hs hlt
  have hall := all_numbered I.lnodup I.llt I.llen
  have hord := M.order G.length le_rfl
  have hneq : ∀ a b, a < G.length → b < G.length → a ≠ b → timeOf G s a < timeOf G s b ∨ timeOf G s b < timeOf G s a := by
    intro a b ha hb hab
    rcases lt_trichotomy (timeOf G s a) (timeOf G s b) with h | h | h
    · exact .inl h
    · exact absurd (T.inj a b ha hb h) hab
    · exact .inr h
  have hlater : ∀ l1 v l2, (s G.length).l = l1 ++ v :: l2 → ∀ x < G.length, x ∉ v :: l1 → timeOf G s x < timeOf G s v := by
    intro l1 v l2 e x hx hxm
    have hxl := hall x hx
    rw [e] at hxl hord
    rcases List.mem_append.1 hxl with h | h
    · exact absurd (List.mem_cons_of_mem _ h) hxm
    · rcases List.mem_cons.1 h with h | h
      · exact absurd (by rw [h]; simp) hxm
      · exact (List.pairwise_cons.1 (List.pairwise_append.1 hord).2.1).1 x h
  have hvl : ∀ l1 v l2, (s G.length).l = l1 ++ v :: l2 → v < G.length := fun l1 v l2 e => I.llt v (by rw [e]; simp)
  refine ⟨(s G.length).g, (s G.length).l, by unfold mcsM; rw [M.run _ le_rfl]; rfl, I.lnodup, fun v => ⟨I.llt v, hall v⟩, I.glen, I.sorted, I.symm, I.lt, ?_, ?_, ?_⟩
  · intro a b hab
    have ha := hlt _ _ (hs _ _ hab)
    have hb := hlt _ _ hab
    by_cases e : a = b
    · subst e; exact (M.final_loop ha).2 hab
    · rcases hneq a b ha hb e with h | h
      · exact (M.final_edge hlt ha hb h).2 ⟨a, .refl, hab⟩
      · exact I.symm _ _ ((M.final_edge hlt hb ha h).2 ⟨b, .refl, hs _ _ hab⟩)
  · intro l1 v l2 e x y hxy hx hy hxm hym hvx hvy
    have hv := hvl l1 v l2 e
    have tx := hlater l1 v l2 e x hx hxm
    have ty := hlater l1 v l2 e y hy hym
    have fx := (M.final_edge hlt hx hv tx).1 (I.symm _ _ hvx)
    have fy := (M.final_edge hlt hy hv ty).1 (I.symm _ _ hvy)
    rcases hneq x y hx hy hxy with h | h
    · exact (M.final_edge hlt hx hy h).2 (fill_closed T hx hy h ty fx fy)
    · exact I.symm _ _ ((M.final_edge hlt hy hx h).2 (fill_closed T hy hx h tx fy fx))
  · intro K hK hKs hp a b hab
    have ha := I.lt _ _ (I.symm _ _ hab)
    have hb := I.lt _ _ hab
    have hc : ∀ x y v, x < G.length → y < G.length → v < G.length → x ≠ y → timeOf G s x < timeOf G s v → timeOf G s y < timeOf G s v → K v x → K v y → K x y := by
      intro x y v hx hy hv hxy tx ty
      obtain ⟨l1, l2, e⟩ := List.append_of_mem (hall v hv)
      have hnot : ∀ z, timeOf G s z < timeOf G s v → z ∉ v :: l1 := by
        intro z hz hm
        rcases List.mem_cons.1 hm with h | h
        · rw [h] at hz; omega
        · rw [e] at hord
          have := (List.pairwise_append.1 hord).2.2 z h v (by simp)
          omega
      exact hp l1 v l2 e x y hxy hx hy (hnot x tx) (hnot y ty)
    by_cases e : a = b
    · subst e; exact hK _ _ ((M.final_loop ha).1 hab)
    · rcases hneq a b ha hb e with h | h
      · exact fill_least T (fun v hv => (M.us_time hv).1) hK hKs hc ha h ((M.final_edge hlt ha hb h).1 hab)
      · exact hKs _ _ (fill_least T (fun v hv => (M.us_time hv).1) hK hKs hc hb h ((M.final_edge hlt hb ha h).1 (I.symm _ _ hab)))

end CLPoly
