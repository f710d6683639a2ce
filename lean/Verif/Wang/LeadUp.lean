import Verif.Wang.LeadFound

/-! # `__wang_leading_coeff` that succeeds has no overflow

The exponents of the factors of `L` are compared with their sums (lines 1467–1475); on success every product that was formed divides a multiple of `L`. -/

namespace CLPoly
namespace Mtshl
open Mono Mgcd Run Upoly Factor Lift Wang Charset MvPolynomial

theorem bind_inv {A B : Type} {m : Run A} {f : A → Run B} {s : List ℕ} {r : B × List ℕ} (h : Run.bind m f s = some r) : ∃ a s', m s = some (a, s') ∧ f a s' = some r := by
  unfold Run.bind at h
  cases hm : m s with
  | none => rw [hm] at h; cases h
  | some x => rw [hm] at h; exact ⟨x.1, x.2, rfl, h⟩

theorem bind_run {A B : Type} {m : Run A} {f : A → Run B} {s s' : List ℕ} {a : A} (h : m s = some (a, s')) : Run.bind m f s = f a s' := by simp [Run.bind, h]

theorem Wp.up {A : Type} {m m' : Run A} {Q : A → Prop} (h : Wp (fun _ => m) Q) (hs : Sub m m') {s : List ℕ} {r : A × List ℕ} (hr : m' s = some r) : m s = some r ∧ Q r.1 := by
  obtain ⟨a, q, N, hn⟩ := h
  have h1 := hn N le_rfl s
  have h2 := hs _ _ h1
  rw [hr] at h2
  cases h2
  exact ⟨h1, q⟩

section
variable {vc : Var → Var → Bool} (ho : VarOrd vc) {K : Finset Var} {B : ℕ}

theorem assignLc_length {chk : Bool} {fuel : ℕ} : ∀ {ls : List (PV Mono ℤ × ℤ)} (R : ℤ) {sg : PV Mono ℤ}, Post (assignLc chk vc fuel ls R sg) fun r => r.1.length = ls.length
  | [], _, _ => Post.ret rfl
  | le :: ls, R, sg => by
    unfold assignLc
    exact (Post.any _).bind fun kR _ => (Post.any _).bind fun sg' _ => (assignLc_length kR.2).bind fun r hr => Post.ret (by simp [hr])

include ho in
theorem assignLc_up (hB : (B : ℤ) ≤ capLex K.card) {fuel : ℕ} : ∀ {ls : List (PV Mono ℤ × ℤ)} {R : ℤ} {sg : PV Mono ℤ} {s : List ℕ} {r : (List ℕ × PV Mono ℤ) × List ℕ}, (∀ t ∈ ls, OKIn vc K t.1) → OKIn vc K sg →
    assignLc false vc fuel ls R sg s = some r → (∀ w, (val sg).degreeOf w + powDeg w (ls.map fun t => val t.1) r.1.1 < B) → assignLc true vc fuel ls R sg s = some r
  | [], _, _, _, _, _, _, h, _ => h
  | le :: ls, R, sg, s, r, hl, hsg, h, hd => by
    unfold assignLc at h ⊢
    obtain ⟨kR, s1, h1, h⟩ := bind_inv h
    obtain ⟨sg', s2, h2, h⟩ := bind_inv h
    obtain ⟨q, s3, h3, h⟩ := bind_inv h
    cases h
    have hp : ∀ w, powDeg w ((le :: ls).map fun t => val t.1) (kR.1 :: q.1) = kR.1 * (val le.1).degreeOf w + powDeg w (ls.map fun t => val t.1) q.1 := fun w => by simp [powDeg]
    have hsub : Sub (if 0 < kR.1 then Run.bind (powFrom true vc le.1 le.1 (kR.1 - 1)) fun lp => mulN true vc sg lp else Run.ret sg) (if 0 < kR.1 then Run.bind (powFrom false vc le.1 le.1 (kR.1 - 1)) fun lp => mulN false vc sg lp else Run.ret sg) :=
      Sub.ite (Sub.bind (powFrom_sub _ _ _) fun _ => mulN_sub _ _) (Sub.refl _)
    obtain ⟨h2', hq⟩ := (sigma_wp ho hB (hl le (by simp)) hsg kR.1 fun w => by have := hd w; dsimp only at this; rw [hp] at this; omega).up hsub h2
    have h3' := assignLc_up hB (fun t ht => hl t (by simp [ht])) hq.1 h3 fun w => by
      have := hd w
      dsimp only at this
      rw [hp] at this
      dsimp only at hq
      rw [hq.2]
      have h4 := degreeOf_mul_le w (val sg) (val le.1 ^ kR.1)
      have h5 := degreeOf_pow_le' w (val le.1) kR.1
      dsimp only
      omega
    rw [bind_run h1, bind_run h2', bind_run h3']
    rfl

include ho in
theorem assignAll_up (hB : (B : ℤ) ≤ capLex K.card) {fuel : ℕ} {ls : List (PV Mono ℤ × ℤ)} (hl : ∀ t ∈ ls, OKIn vc K t.1) : ∀ {ws : List ℤ} {s : List ℕ} {r : (List (List ℕ) × List (PV Mono ℤ)) × List ℕ},
    assignAll false vc fuel ls ws s = some r → (∀ ks ∈ r.1.1, ∀ w, powDeg w (ls.map fun t => val t.1) ks < B) → assignAll true vc fuel ls ws s = some r
  | [], _, _, h, _ => h
  | z :: ws, s, r, h, hd => by
    unfold assignAll at h ⊢
    obtain ⟨q, s1, h1, h⟩ := bind_inv h
    obtain ⟨qs, s2, h2, h⟩ := bind_inv h
    cases h
    have h1' := assignLc_up ho hB hl one_in h1 fun w => by
      have := hd q.1 (by simp) w
      rw [val_one, degreeOf_one]
      simpa using this
    have h2' := assignAll_up hB hl h2 fun ks hks => hd ks (by simp [hks])
    rw [bind_run h1', bind_run h2']
    rfl

theorem assignAll_length {chk : Bool} {fuel : ℕ} {ls : List (PV Mono ℤ × ℤ)} : ∀ ws : List ℤ, Post (assignAll chk vc fuel ls ws) fun r => ∀ ks ∈ r.1, ks.length = ls.length
  | [] => Post.ret (by simp)
  | z :: ws => by
    unfold assignAll
    refine (assignLc_length _).bind fun q hq => (assignAll_length ws).bind fun qs hqs => Post.ret fun ks hks => ?_
    rcases List.mem_cons.1 hks with rfl | h
    exacts [hq, hqs ks h]

theorem degreeOf_le_of_dvd {w : Var} {f g : MvPolynomial Var ℤ} (h : f ∣ g) (hg : g ≠ 0) : f.degreeOf w ≤ g.degreeOf w := by
  obtain ⟨q, rfl⟩ := h
  rw [degreeOf_mul_dom (left_ne_zero_of_mul hg) (right_ne_zero_of_mul hg)]
  omega

include ho in
theorem splitLc_up (hB : (B : ℤ) ≤ capLex K.card) {fuel : ℕ} {facL : PV Mono ℤ → Run (ℤ × List (PV Mono ℤ × ℕ))} {L : PV Mono ℤ} (hL : OKIn vc K L) (L0 : val L ≠ 0) (hdeg : ∀ w, (val L).degreeOf w < B) (hfac : Post (facL L) fun r => FacX False vc (lexGt vc) (val L) r.1 r.2)
    {us : List (UPoly ℤ)} {α : List (Var × ℤ)} {c : ℤ} {s s' : List ℕ} {sg : List (PV Mono ℤ)} (h : splitLc false vc fuel facL L us α c s = some (some sg, s')) : splitLc true vc fuel facL L us α c s = some (some sg, s') := by
  unfold splitLc at h ⊢
  obtain ⟨fl, s1, h1, h⟩ := bind_inv h
  rw [bind_run h1]
  have hfl := hfac _ _ h1
  have hx := factor_in hL L0 hfl
  dsimp only at h hfl hx ⊢
  rw [zip_eq] at h ⊢
  obtain ⟨ls, hls⟩ : ∃ ls, ls = fl.2.insertionSort fun a b => b.2 ≤ a.2 := ⟨_, rfl⟩
  rw [← hls] at h ⊢
  have hperm : ls.Perm fl.2 := hls ▸ List.perm_insertionSort _ _
  have hprod : C fl.1 * facProd ls = val L ∨ C fl.1 * facProd ls = -val L := by rw [facProd_perm hperm]; exact hfl.prod.imp id fun h => h.2
  by_cases c1 : lcCheck vc α us c fl.1 ls = false
  · rw [if_pos c1] at h; cases h
  rw [if_neg c1] at h ⊢
  by_cases c2 : ((ls.map fun l => |constVal (assignAt vc α l.1)|).any fun e => decide (e ≤ 1)) = true
  · rw [if_pos c2] at h; cases h
  rw [if_neg c2] at h ⊢
  obtain ⟨b, s2, h2, h⟩ := bind_inv h
  rw [bind_run h2]
  by_cases c3 : b = false
  · rw [if_pos c3] at h; cases h
  rw [if_neg c3] at h ⊢
  obtain ⟨r, s3, h3, h⟩ := bind_inv h
  by_cases hcons : ((List.range ls.length).all fun j => decide ((r.1.map fun ks => ks.reverse.getD j 0).sum = (ls.map Prod.snd).getD j 0)) = false
  · rw [if_pos hcons] at h; cases h
  rw [if_neg hcons] at h
  have hin : ∀ t ∈ (ls.map fun l => (l.1, |constVal (assignAt vc α l.1)|)).reverse, OKIn vc K t.1 := fun t ht => by
    obtain ⟨z, hz, e⟩ := List.mem_map.1 (List.mem_reverse.1 ht)
    rw [← e]
    exact hx z (hperm.subset hz)
  have hlen : ∀ ks ∈ r.1, ks.length = ls.length := fun ks hks => by
    have := assignAll_length _ _ _ h3 ks hks
    simpa using this
  -- each valuation is at most the exponent in `L`
  have hnz : ∀ l ∈ ls.map fun l => val l.1, l ≠ 0 := fun l hl => by
    obtain ⟨z, hz, rfl⟩ := List.mem_map.1 hl
    exact fun e => hfl.nonconst z (hperm.subset hz) 0 (by rw [e, C_0])
  have hF0 : facProd ls ≠ 0 := fun e => L0 (by rcases hprod with h | h <;> rw [e, mul_zero] at h; exacts [h.symm, neg_eq_zero.1 h.symm])
  have hcol : powers (ls.map fun l => val l.1) (colSum (ls.map fun l => val l.1).length (r.1.map List.reverse)) = facProd ls := by
    rw [← powers_map]
    congr 1
    have hlen' : ∀ ks ∈ r.1.map List.reverse, ks.length = (ls.map fun l => val l.1).length := fun ks hks => by
      obtain ⟨z, hz, rfl⟩ := List.mem_map.1 hks
      rw [List.length_reverse, hlen z hz, List.length_map]
    have hl1 := colSum_length hlen'
    refine List.ext_getElem (by rw [hl1, List.length_map, List.length_map]) fun j h1 h2 => ?_
    have hj : j < ls.length := by simpa using h2
    have := (List.all_eq_true.1 (Bool.not_eq_false _ ▸ hcons)) j (by simpa using hj)
    rw [decide_eq_true_iff] at this
    have h3 := colSum_getD (by simpa using hj) hlen'
    rw [List.map_map] at h3
    rw [← List.getD_eq_getElem _ 0 h1, ← List.getD_eq_getElem _ 0 h2, h3]
    exact this
  have hFL : ∀ w, (facProd ls).degreeOf w ≤ (val L).degreeOf w := fun w => degreeOf_le_of_dvd (by
    rcases hprod with h | h
    · exact ⟨C fl.1, by rw [← h]; ring⟩
    · exact ⟨-C fl.1, by rw [← neg_eq_iff_eq_neg.2 h]; ring⟩) L0
  have hks : ∀ ks ∈ r.1, ∀ w, powDeg w ((ls.map fun l => (l.1, |constVal (assignAt vc α l.1)|)).reverse.map fun t => val t.1) ks < B := fun ks hk w => by
    have e1 : ((ls.map fun l => (l.1, |constVal (assignAt vc α l.1)|)).reverse.map fun t => val t.1) = (ls.map fun l => val l.1).reverse := by rw [List.map_reverse, List.map_map]; rfl
    rw [e1, (powDeg_eq fun l hl => hnz l (List.mem_reverse.1 hl)).2]
    have e2 : powers (ls.map fun l => val l.1).reverse ks = powers (ls.map fun l => val l.1) ks.reverse := by
      rw [← powers_reverse (by rw [List.length_reverse, List.length_map, hlen ks hk]), List.reverse_reverse]
    rw [e2]
    refine lt_of_le_of_lt ((degreeOf_le_of_dvd ?_ hF0).trans (hFL w)) (hdeg w)
    rw [← hcol, powers_colSum fun ks hks => by
      obtain ⟨z, hz, rfl⟩ := List.mem_map.1 hks
      rw [List.length_reverse, hlen z hz, List.length_map]]
    exact List.dvd_prod (List.mem_map_of_mem (List.mem_map_of_mem hk))
  have h3' := assignAll_up ho hB hin h3 hks
  obtain ⟨_, hr2⟩ := assignAll_val ho hin _ _ _ h3'
  dsimp only at hr2
  rw [bind_run h3', if_neg hcons]
  obtain ⟨r1, r2⟩ := r
  dsimp only at h hr2 hks ⊢
  match r2, hr2, h with
  | t :: ts, hr2, h =>
    obtain ⟨t', s4, h4, h⟩ := bind_inv h
    obtain ⟨ks, hk, ht⟩ := forall₂_mem_right hr2 (show t ∈ t :: ts by simp)
    obtain ⟨m1, m2⟩ := mkConst_in (vc := vc) (K := K) fl.1
    have h4' := ((mulN_wp ho hB ht.2.1 m1 fun w => by
      have := hks ks hk w
      rw [(powDeg_eq fun l hl => ?_).2, ← ht.2.2] at this
      · rw [m2, degreeOf_C]; exact this
      · rw [List.map_reverse, List.map_map] at hl
        exact hnz l (List.mem_reverse.1 hl)).up (mulN_sub _ _) h4).1
    show Run.bind (mulN true vc t (mkConst fl.1)) _ s3 = _
    rw [bind_run h4']
    exact h

include ho in
theorem targets_up (hB : (B : ℤ) ≤ capLex K.card) {α : List (Var × ℤ)} {δ : ℤ} : ∀ {sg : List (PV Mono ℤ)} {s : List ℕ} {r : Option (List (PV Mono ℤ)) × List ℕ}, (∀ s ∈ sg, OKIn vc K s ∧ ∀ w, (val s).degreeOf w < B) → targets false vc α δ sg s = some r → targets true vc α δ sg s = some r
  | [], _, _, _, h => h
  | t :: sg, s, r, hs, h => by
    unfold targets at h ⊢
    obtain ⟨o, s1, h1, h⟩ := bind_inv h
    have h1' : target true vc α δ t s = some (o, s1) := by
      unfold target at h1 ⊢
      by_cases c1 : constVal (assignAt vc α t) = 0
      · rw [if_pos c1] at h1 ⊢; exact h1
      rw [if_neg c1] at h1 ⊢
      by_cases c2 : Int.tmod δ (constVal (assignAt vc α t)) ≠ 0
      · rw [if_pos c2] at h1 ⊢; exact h1
      rw [if_neg c2] at h1 ⊢
      obtain ⟨q, s2, h2, h1⟩ := bind_inv h1
      obtain ⟨m1, m2⟩ := mkConst_in (vc := vc) (K := K) (Int.tdiv δ (constVal (assignAt vc α t)))
      have h2' := ((mulN_wp ho hB (hs t (by simp)).1 m1 fun w => by rw [m2, degreeOf_C]; exact (hs t (by simp)).2 w).up (mulN_sub _ _) h2).1
      rw [bind_run h2']
      exact h1
    rw [bind_run h1']
    match o, h with
    | none, h => exact h
    | some z, h =>
      obtain ⟨q, s2, h2, h⟩ := bind_inv h
      dsimp only
      rw [bind_run (targets_up hB (fun s hs' => hs s (by simp [hs'])) h2)]
      exact h

include ho in
/-- success without the checks is success with the checks -/
theorem wangLc_up {fuel : ℕ} {f : PV Mono ℤ} {x : Var} (hB : (B : ℤ) ≤ capLex (insert x K).card) (hf : OKIn vc (insert x K) f) (hdeg : ∀ w, (val f).degreeOf w < B) {us : List (UPoly ℤ)}
    {α : List (Var × ℤ)} (hα : ∀ w ∈ K, (α.lookup w).isSome = true) {facL : PV Mono ℤ → Run (ℤ × List (PV Mono ℤ × ℕ))} (hfac : Post (facL (leadIn vc (lexGt vc) f x).1) fun r => FacX False vc (lexGt vc) (val (leadIn vc (lexGt vc) f x).1) r.1 r.2) {c : ℤ}
    {s s' : List ℕ} {w : PV Mono ℤ × List (UPoly ℤ) × List (PV Mono ℤ)} (h : wangLc false vc fuel facL f us α x c s = some (some w, s')) : wangLc true vc fuel facL f us α x c s = some (some w, s') := by
  have M := lex_ord ho
  have hBK : (B : ℤ) ≤ capLex K.card := hB.trans (capLex_anti (Finset.card_le_card (Finset.subset_insert _ _)))
  obtain ⟨_, l2, l3⟩ := leadIn_spec M hf.1 x
  unfold wangLc at h ⊢
  obtain ⟨L, hL⟩ : ∃ L, L = (leadIn vc (lexGt vc) f x).1 := ⟨_, rfl⟩
  rw [← hL] at l2 l3 hfac h ⊢
  have hLK : OKIn vc K L := ⟨l2, fun w hw => by
    have h1 := hf.2 (l3.vars_subset hw)
    rcases Finset.mem_insert.1 h1 with e | e
    · exact absurd (e ▸ hw) l3.not_vars
    · exact e⟩
  have hδ : constVal (if isNumber L = true then L else assignAt vc α L) = eval (ptVal α) (val L) := by
    by_cases hn : isNumber L = true
    · rw [if_pos hn, number_val ho l2 hn, eval_C]
    · rw [if_neg hn]; exact assignAt_const ho l2 fun w hw => hα w (hLK.2 hw)
  rw [hδ] at h ⊢
  obtain ⟨δ, hd⟩ : ∃ δ, δ = eval (ptVal α) (val L) := ⟨_, rfl⟩
  rw [← hd] at h ⊢
  have hLdeg : ∀ w, (val L).degreeOf w < B := fun w => lt_of_le_of_lt l3.degreeOf_le (hdeg w)
  by_cases δ0 : δ = 0
  · rw [if_pos δ0] at h; cases h
  rw [if_neg δ0] at h ⊢
  have L0 : val L ≠ 0 := fun e => δ0 (by rw [hd, e, map_zero])
  obtain ⟨o, s1, h1, h⟩ := bind_inv h
  match o, h1, h with
  | some sg, h1, h =>
    have h1' : (if isNumber L = true then Run.ret (some (L :: (us.tail.map fun _ => [(Mono.one, 1)]))) else splitLc true vc fuel facL L us α c) s = some (some sg, s1) := by
      by_cases hn : isNumber L = true
      · rw [if_pos hn] at h1 ⊢; exact h1
      · rw [if_neg hn] at h1 ⊢; exact splitLc_up ho hBK hLK L0 hLdeg hfac h1
    have hsg : ∀ t ∈ sg, OKIn vc K t ∧ ∀ w, (val t).degreeOf w < B := by
      by_cases hn : isNumber L = true
      · rw [if_pos hn] at h1
        cases h1
        intro t ht
        rcases List.mem_cons.1 ht with rfl | ht
        · exact ⟨hLK, hLdeg⟩
        · obtain ⟨_, _, rfl⟩ := List.mem_map.1 ht
          exact ⟨one_in, fun w => by rw [val_one, degreeOf_one]; exact lt_of_le_of_lt (Nat.zero_le _) (hLdeg w)⟩
      · rw [if_neg hn] at h1'
        obtain ⟨q1, q2, q3⟩ := splitLc_prod ho hLK L0 hfac us α c _ _ h1' sg rfl
        refine fun t ht => ⟨q1 t ht, fun w => lt_of_le_of_lt (degreeOf_le_of_dvd ?_ L0) (hLdeg w)⟩
        have h4 := List.dvd_prod (List.mem_map_of_mem (f := val) ht)
        rcases q3 with e | e
        · rwa [e] at h4
        · rw [e, dvd_neg] at h4; exact h4
    rw [bind_run h1']
    obtain ⟨fs, s2, h2, h⟩ := bind_inv h
    obtain ⟨vs, s3, h3, h⟩ := bind_inv h
    obtain ⟨o, s4, h4, h⟩ := bind_inv h
    obtain ⟨m1, m2⟩ := mkConst_in (vc := vc) (K := insert x K) (δ ^ (us.length - 1))
    have h2' := ((mulN_wp ho hB hf m1 fun w => by rw [m2, degreeOf_C]; exact hdeg w).up (mulN_sub _ _) h2).1
    dsimp only
    rw [bind_run h2', bind_run h3, bind_run (targets_up ho hBK hsg h4)]
    exact h

end
end Mtshl
end CLPoly
