import Verif.Wang.SparseComplete

/-! # The distribution of the leading coefficient: products, and exactness for an existing factorization -/

namespace CLPoly
namespace Mtshl
open Mono Mgcd Run Upoly Factor Lift Wang Charset MvPolynomial

/-! ## leading coefficients in a variable -/

section
variable {x : Var} {f g c : MvPolynomial Var ℤ}

theorem isLead_iff : IsCoeff x (f.degreeOf x) f c ↔ c = (toU x f).leadingCoeff := by
  rw [isCoeff_iff, Polynomial.leadingCoeff, natDegree_toU]

theorem lead_prod (x : Var) (H : List (MvPolynomial Var ℤ)) : (toU x H.prod).leadingCoeff = (H.map fun h => (toU x h).leadingCoeff).prod := by
  induction H with
  | nil => simp
  | cons h H ih => rw [List.prod_cons, map_mul, Polynomial.leadingCoeff_mul, ih, List.map_cons, List.prod_cons]

theorem lead_C_mul (x : Var) (a : ℤ) (h : MvPolynomial Var ℤ) : (toU x (C a * h)).leadingCoeff = C a * (toU x h).leadingCoeff := by
  have := toU_free (v := x) (f := (C a : MvPolynomial Var ℤ)) (by rw [vars_C]; simp)
  rw [map_mul, Polynomial.leadingCoeff_mul, this, Polynomial.leadingCoeff_C]

end

/-! ## valuations and own primes -/

/-- every element has a prime divisor that divides neither `D` nor a later element -/
def Own (D : ℤ) : List ℤ → Prop
  | [] => True
  | e :: es => (∃ l : ℤ, Prime l ∧ l ∣ e ∧ ¬ l ∣ D * es.prod) ∧ Own D es

theorem stripOne_spec : ∀ (n : ℕ) {r q q' : ℤ}, 0 < q → stripOne n r q = some (some q') → q' ∣ q ∧ 0 < q' ∧ (q ≠ 1 → q' ≠ 1) ∧ ∀ l : ℤ, Prime l → (l ∣ q' → ¬ l ∣ r) ∧ (l ∣ q → l ∣ q' ∨ l ∣ r)
  | 0, _, _, _, _, h => by simp [stripOne] at h
  | n + 1, r, q, q', h0, h => by
    unfold stripOne at h
    by_cases hr : r = 1
    · rw [if_pos hr] at h
      simp only [Option.some.injEq] at h
      subst h
      exact ⟨dvd_refl _, h0, id, fun l hl => ⟨fun _ h2 => hl.not_unit (isUnit_of_dvd_one (hr ▸ h2)), fun h => .inl h⟩⟩
    · rw [if_neg hr] at h
      dsimp only at h
      obtain ⟨g, hg⟩ : ∃ g : ℤ, g = Int.gcd r q := ⟨_, rfl⟩
      rw [← hg] at h
      by_cases h1 : Int.tdiv q g = 1
      · rw [if_pos h1] at h; simp at h
      rw [if_neg h1] at h
      have gq : g ∣ q := hg ▸ Int.gcd_dvd_right ..
      have gr : g ∣ r := hg ▸ Int.gcd_dvd_left ..
      have g0 : 0 < g := by
        rw [hg]
        exact_mod_cast Int.gcd_pos_of_ne_zero_right _ h0.ne'
      have e := Int.mul_tdiv_cancel' gq
      obtain ⟨s, hs⟩ : ∃ s, s = Int.tdiv q g := ⟨_, rfl⟩
      rw [← hs] at h h1 e
      have s0 : 0 < s := by
        rw [← e] at h0
        exact (mul_pos_iff_of_pos_left g0).1 h0
      obtain ⟨a1, a2, a3, a4⟩ := stripOne_spec n s0 h
      refine ⟨a1.trans ⟨g, by rw [← e, mul_comm]⟩, a2, fun _ => a3 h1, fun l hl => ⟨fun h2 h3 => (a4 l hl).1 h2 ?_, fun h2 => ?_⟩⟩
      · rw [hg]
        exact Int.dvd_coe_gcd h3 (h2.trans (a1.trans ⟨g, by rw [← e, mul_comm]⟩))
      · rw [← e] at h2
        rcases hl.dvd_or_dvd h2 with h2 | h2
        · exact .inr (h2.trans gr)
        · rcases (a4 l hl).2 h2 with h | h
          exacts [.inl h, .inr (h.trans gr)]

theorem stripAll_spec {fuel : ℕ} : ∀ {d : List ℤ} {q q' : ℤ}, 0 < q → stripAll fuel d q = some (some q') → 0 < q' ∧ (q ≠ 1 → q' ≠ 1) ∧ ∀ l : ℤ, Prime l → (l ∣ q' → l ∣ q ∧ ∀ r ∈ d, ¬ l ∣ r) ∧ (l ∣ q → l ∣ q' ∨ ∃ r ∈ d, l ∣ r)
  | [], q, q', h0, h => by
    unfold stripAll at h
    simp only [Option.some.injEq] at h
    subst h
    exact ⟨h0, id, fun l _ => ⟨fun h => ⟨h, by simp⟩, .inl⟩⟩
  | r :: d, q, q', h0, h => by
    unfold stripAll at h
    obtain ⟨o, h1, h2⟩ := Option.bind_eq_some_iff.1 h
    match o, h1, h2 with
    | some s, h1, h2 =>
      obtain ⟨a1, a2, a3, a4⟩ := stripOne_spec _ h0 h1
      obtain ⟨b1, b2, b3⟩ := stripAll_spec a2 h2
      refine ⟨b1, fun h => b2 (a3 h), fun l hl => ⟨fun h => ?_, fun h => ?_⟩⟩
      · obtain ⟨c1, c2⟩ := (b3 l hl).1 h
        refine ⟨c1.trans a1, fun r' hr => ?_⟩
        rcases List.mem_cons.1 hr with rfl | hr
        exacts [(a4 l hl).1 c1, c2 r' hr]
      · rcases (a4 l hl).2 h with h | h
        · rcases (b3 l hl).2 h with h | ⟨r', hr, h⟩
          exacts [.inl h, .inr ⟨r', by simp [hr], h⟩]
        · exact .inr ⟨r, by simp, h⟩

theorem nonDivisors_spec {fuel : ℕ} {D : ℤ} : ∀ {es d acc : List ℤ}, (∀ e ∈ es, 1 < e) → (∀ l : ℤ, Prime l → ((∃ r ∈ d, l ∣ r) ↔ l ∣ D * acc.prod)) → Own D acc → nonDivisors fuel d es = some true → Own D (es.reverse ++ acc)
  | [], _, _, _, _, hO, _ => by simpa using hO
  | e :: es, d, acc, he, hd, hO, h => by
    unfold nonDivisors at h
    obtain ⟨o, h1, h2⟩ := Option.bind_eq_some_iff.1 h
    match o, h1, h2 with
    | some q, h1, h2 =>
      have e1 := he e (by simp)
      obtain ⟨a1, a2, a3⟩ := stripAll_spec (by omega) h1
      rw [List.reverse_cons, List.append_assoc, List.singleton_append]
      refine nonDivisors_spec (fun z hz => he z (by simp [hz])) (fun l hl => ?_) ?_ h2
      · rw [List.prod_cons, show D * (e * acc.prod) = e * (D * acc.prod) by ring]
        constructor
        · rintro ⟨r, hr, hlr⟩
          rcases List.mem_cons.1 hr with rfl | hr
          · exact ((a3 l hl).1 hlr).1.mul_right _
          · exact ((hd l hl).1 ⟨r, hr, hlr⟩).mul_left _
        · intro h
          rcases hl.dvd_or_dvd h with h | h
          · rcases (a3 l hl).2 h with h | ⟨r, hr, h⟩
            exacts [⟨q, by simp, h⟩, ⟨r, by simp [hr], h⟩]
          · obtain ⟨r, hr, h⟩ := (hd l hl).2 h
            exact ⟨r, by simp [hr], h⟩
      · refine ⟨?_, hO⟩
        have q1 : q ≠ 1 := a2 (by omega)
        obtain ⟨p, hp, hpd⟩ := Nat.exists_prime_and_dvd (n := q.natAbs) (by omega)
        have hpl : Prime (p : ℤ) := Nat.prime_iff_prime_int.1 hp
        have hpq : (p : ℤ) ∣ q := Int.natCast_dvd.2 hpd
        refine ⟨p, hpl, ((a3 _ hpl).1 hpq).1, fun h => ?_⟩
        obtain ⟨r, hr, h⟩ := (hd _ hpl).2 h
        exact ((a3 _ hpl).1 hpq).2 r hr h

theorem valuation_spec {E l S : ℤ} (hE : E ≠ 0) (hl : l ∣ E) (hS : ¬ l ∣ S) : ∀ (n : ℕ) {k a : ℕ} {r : ℕ × ℤ}, valuation E n (E ^ k * S) a = some r → r = (a + k, S)
  | 0, _, _, _, h => by simp [valuation] at h
  | n + 1, 0, a, r, h => by
    unfold valuation at h
    rw [pow_zero, one_mul, if_neg fun e => hS (hl.trans (Int.dvd_of_tmod_eq_zero e))] at h
    simpa using h.symm
  | n + 1, k + 1, a, r, h => by
    unfold valuation at h
    have e : E ^ (k + 1) * S = E * (E ^ k * S) := by ring
    rw [e, Int.mul_tmod_right, if_pos rfl, Int.mul_tdiv_cancel_left _ hE] at h
    rw [valuation_spec hE hl hS n h]
    simp; omega

/-! ## products -/

section
variable {vc : Var → Var → Bool} (ho : VarOrd vc) {K : Finset Var}

include ho in
theorem powFrom_val {l : PV Mono ℤ} (hl : OKIn vc K l) : ∀ (k : ℕ) {acc : PV Mono ℤ}, OKIn vc K acc → Post (powFrom true vc l acc k) fun r => OKIn vc K r ∧ val r = val acc * val l ^ k
  | 0, _, h => Post.ret ⟨h, by simp⟩
  | k + 1, _, h => (mulN_in ho h hl).bind fun _ ha => (powFrom_val hl k ha.1).mono fun r hr => ⟨hr.1, by rw [hr.2, ha.2]; ring⟩

include ho in
theorem sigma_step {l sg : PV Mono ℤ} (hl : OKIn vc K l) (hs : OKIn vc K sg) (k : ℕ) :
    Post (if 0 < k then bind (powFrom true vc l l (k - 1)) fun lp => mulN true vc sg lp else ret sg) fun s => OKIn vc K s ∧ val s = val sg * val l ^ k := by
  refine Post.ite (fun h => (powFrom_val ho hl _ hl).bind fun lp hlp => (mulN_in ho hs hlp.1).mono fun r hr => ⟨hr.1, ?_⟩) fun h => Post.ret ⟨hs, ?_⟩
  · rw [hr.2, hlp.2, ← pow_succ', Nat.sub_add_cancel h]
  · rw [Nat.eq_zero_of_not_pos h, pow_zero, mul_one]

/-- a product of powers -/
def powers {R : Type} [CommMonoid R] (ls : List R) (ks : List ℕ) : R := (List.zipWith (fun l k => l ^ k) ls ks).prod

include ho in
theorem assignLc_val {fuel : ℕ} : ∀ {ls : List (PV Mono ℤ × ℤ)} (R : ℤ) {sg : PV Mono ℤ}, (∀ x ∈ ls, OKIn vc K x.1) → OKIn vc K sg →
    Post (assignLc true vc fuel ls R sg) fun r => r.1.length = ls.length ∧ OKIn vc K r.2 ∧ val r.2 = val sg * powers (ls.map fun x => val x.1) r.1
  | [], _, _, _, h => Post.ret ⟨rfl, h, by simp [powers]⟩
  | le :: ls, R, sg, hl, h => by
    unfold assignLc
    refine (Post.any _).bind fun kR _ => (sigma_step ho (hl le (by simp)) h kR.1).bind fun sg' hs => ?_
    refine (assignLc_val _ (fun x hx => hl x (by simp [hx])) hs.1).bind fun r hr => Post.ret ⟨by simp [hr.1], hr.2.1, ?_⟩
    rw [hr.2.2, hs.2]
    simp [powers, mul_assoc]

theorem powers_zipAdd {R : Type} [CommMonoid R] : ∀ {ls : List R} {a b : List ℕ}, a.length = ls.length → b.length = ls.length → powers ls (List.zipWith (· + ·) a b) = powers ls a * powers ls b
  | [], _, _, _, _ => by simp [powers]
  | l :: ls, [], _, h, _ => by simp at h
  | l :: ls, _ :: _, [], _, h => by simp at h
  | l :: ls, k :: a, m :: b, ha, hb => by
    have := powers_zipAdd (ls := ls) (a := a) (b := b) (by simpa using ha) (by simpa using hb)
    simp only [powers, List.zipWith_cons_cons, List.prod_cons] at this ⊢
    rw [this, pow_add]; exact mul_mul_mul_comm ..

theorem powers_reverse {R : Type} [CommMonoid R] {ls : List R} {a : List ℕ} (h : ls.length = a.length) : powers ls.reverse a.reverse = powers ls a := by
  unfold powers
  rw [← List.reverse_zipWith h, List.prod_reverse]

theorem powers_zero {R : Type} [CommMonoid R] (ls : List R) : powers ls (List.replicate ls.length 0) = 1 := by
  induction ls with
  | nil => simp [powers]
  | cons l ls ih =>
    simp only [powers] at ih ⊢
    rw [List.length_cons, List.replicate_succ, List.zipWith_cons_cons, List.prod_cons, ih, pow_zero, one_mul]

/-- the sums of the columns -/
def colSum (n : ℕ) (kss : List (List ℕ)) : List ℕ := kss.foldr (List.zipWith (· + ·)) (List.replicate n 0)

theorem colSum_length {n : ℕ} : ∀ {kss : List (List ℕ)}, (∀ ks ∈ kss, ks.length = n) → (colSum n kss).length = n
  | [], _ => by simp [colSum]
  | ks :: kss, h => by
    have := colSum_length fun k hk => h k (List.mem_cons_of_mem ks hk)
    unfold colSum at this ⊢
    rw [List.foldr_cons, List.length_zipWith, this, h ks (by simp), min_self]

theorem colSum_getD {n j : ℕ} (hj : j < n) : ∀ {kss : List (List ℕ)}, (∀ ks ∈ kss, ks.length = n) → (colSum n kss).getD j 0 = (kss.map fun ks => ks.getD j 0).sum
  | [], _ => by simp [colSum, List.getD_eq_getElem?_getD, hj]
  | ks :: kss, h => by
    have h1 := colSum_length fun k hk => h k (List.mem_cons_of_mem ks hk)
    have := colSum_getD hj fun k hk => h k (List.mem_cons_of_mem ks hk)
    rw [List.map_cons, List.sum_cons, ← this]
    have h2 := h ks (by simp)
    show (List.zipWith (· + ·) ks (colSum n kss)).getD j 0 = _
    rw [List.getD_eq_getElem _ _ (by rw [List.length_zipWith, h1, h2]; simpa using hj), List.getElem_zipWith, List.getD_eq_getElem _ _ (by omega), List.getD_eq_getElem _ _ (by omega)]

theorem powers_colSum {R : Type} [CommMonoid R] {ls : List R} : ∀ {kss : List (List ℕ)}, (∀ ks ∈ kss, ks.length = ls.length) → powers ls (colSum ls.length kss) = (kss.map (powers ls)).prod
  | [], _ => by simp [colSum, powers_zero]
  | ks :: kss, h => by
    have h1 := colSum_length fun k hk => h k (List.mem_cons_of_mem ks hk)
    rw [List.map_cons, List.prod_cons, ← powers_colSum fun k hk => h k (List.mem_cons_of_mem ks hk)]
    exact powers_zipAdd (h ks (by simp)) h1

theorem powers_map (ls : List (PV Mono ℤ × ℕ)) : powers (ls.map fun l => val l.1) (ls.map Prod.snd) = facProd ls := by
  unfold powers facProd
  congr 1
  induction ls with
  | nil => rfl
  | cons l ls ih => simp [ih]

theorem facProd_perm {l m : List (PV Mono ℤ × ℕ)} (h : l.Perm m) : facProd l = facProd m := (h.map _).prod_eq

include ho in
theorem assignAll_val {fuel : ℕ} {ls : List (PV Mono ℤ × ℤ)} (hl : ∀ x ∈ ls, OKIn vc K x.1) : ∀ ws : List ℤ,
    Post (assignAll true vc fuel ls ws) fun r => r.1.length = ws.length ∧ List.Forall₂ (fun ks s => ks.length = ls.length ∧ OKIn vc K s ∧ val s = powers (ls.map fun x => val x.1) ks) r.1 r.2
  | [] => Post.ret ⟨rfl, List.Forall₂.nil⟩
  | w :: ws => by
    unfold assignAll
    refine (assignLc_val ho _ hl one_in).bind fun r hr => (assignAll_val hl ws).bind fun rs hrs => Post.ret ⟨by simp [hrs.1], List.Forall₂.cons ⟨hr.1, hr.2.1, ?_⟩ hrs.2⟩
    rw [hr.2.2, val_cons, val_nil, expo_one, add_zero]
    simp

variable {facL : PV Mono ℤ → Run (ℤ × List (PV Mono ℤ × ℕ))}

theorem factor_in {L : PV Mono ℤ} (hL : OKIn vc K L) (L0 : val L ≠ 0) {γ : ℤ} {l : List (PV Mono ℤ × ℕ)} (hfl : FacX False vc (lexGt vc) (val L) γ l) : ∀ x ∈ l, OKIn vc K x.1 := fun x hxm => by
  refine ⟨hfl.ok x hxm, (vars_of_dvd ?_ L0).trans hL.2⟩
  have h1 : val x.1 ∣ facProd l := by
    refine (dvd_pow_self _ (hfl.pos x hxm).ne').trans ?_
    unfold facProd
    exact List.dvd_prod (List.mem_map_of_mem (f := fun x : PV Mono ℤ × ℕ => val x.1 ^ x.2) hxm)
  rcases hfl.prod with e | ⟨_, e⟩
  · rw [← e]; exact h1.mul_left _
  · rw [← dvd_neg, ← e]; exact h1.mul_left _

theorem zip_eq (vc : Var → Var → Bool) (α : List (Var × ℤ)) (ls : List (PV Mono ℤ × ℕ)) : List.zip (ls.map Prod.fst) (ls.map fun l => |constVal (assignAt vc α l.1)|) = ls.map fun l => (l.1, |constVal (assignAt vc α l.1)|) := by
  induction ls with
  | nil => rfl
  | cons l ls ih => simp [ih]

include ho in
/-- the product of the `σ_i` is `L`, up to the sign of the factorization of `L` -/
theorem splitLc_prod {fuel : ℕ} {L : PV Mono ℤ} (hL : OKIn vc K L) (L0 : val L ≠ 0) (hfac : Post (facL L) fun r => FacX False vc (lexGt vc) (val L) r.1 r.2) (us : List (UPoly ℤ)) (α : List (Var × ℤ)) (c : ℤ) :
    Post (splitLc true vc fuel facL L us α c) fun o => ∀ sg, o = some sg → (∀ s ∈ sg, OKIn vc K s) ∧ sg.length = us.length ∧ ((sg.map val).prod = val L ∨ (sg.map val).prod = -val L) := by
  unfold splitLc
  refine hfac.bind fun fl hfl => ?_
  have hx := factor_in hL L0 hfl
  dsimp only
  rw [zip_eq]
  obtain ⟨ls, hls⟩ : ∃ ls, ls = fl.2.insertionSort fun a b => b.2 ≤ a.2 := ⟨_, rfl⟩
  rw [← hls]
  have hperm : ls.Perm fl.2 := hls ▸ List.perm_insertionSort _ _
  refine Post.ite (fun _ => Post.ret fun _ h => by cases h) fun _ => Post.ite (fun _ => Post.ret fun _ h => by cases h) fun _ => (Post.any _).bind fun b _ => Post.ite (fun _ => Post.ret fun _ h => by cases h) fun _ => ?_
  refine (assignAll_val ho (K := K) (fun x hxm => ?_) _).bind fun r hr => Post.ite (fun _ => Post.ret fun _ h => by cases h) fun hcons => ?_
  · obtain ⟨z, hz, e⟩ := List.mem_map.1 (List.mem_reverse.1 hxm)
    rw [← e]
    exact hx z (hperm.subset hz)
  · obtain ⟨r1, r2⟩ := r
    obtain ⟨hr1, hr2⟩ := hr
    dsimp only at hcons hr1 hr2 ⊢
    have hlen : ∀ ks ∈ r1, ks.length = ls.length := fun ks hks => by
      obtain ⟨s, _, h⟩ := forall₂_mem_left hr2 hks
      simpa using h.1
    have hp : (r2.map val).prod = facProd ls := by
      have e1 : r2.map val = (r1.map List.reverse).map (powers (ls.map fun l => val l.1)) := by
        rw [List.map_map]
        clear hcons hr1
        induction hr2 with
        | nil => rfl
        | cons h _ ih =>
          rw [List.map_cons, List.map_cons, ih fun ks hks => hlen ks (by simp [hks]), h.2.2]
          congr 1
          rw [List.map_reverse, List.map_map, Function.comp_apply, ← powers_reverse (by rw [List.length_reverse, List.length_map, hlen _ (by simp)]), List.reverse_reverse]
          rfl
      have hlen' : ∀ ks ∈ r1.map List.reverse, ks.length = (ls.map fun l => val l.1).length := fun ks hks => by
        obtain ⟨z, hz, rfl⟩ := List.mem_map.1 hks
        rw [List.length_reverse, hlen z hz, List.length_map]
      rw [e1, ← powers_colSum hlen', ← powers_map]
      congr 1
      have hl1 := colSum_length hlen'
      refine List.ext_getElem (by rw [hl1, List.length_map, List.length_map]) fun j h1 h2 => ?_
      have hj : j < ls.length := by simpa using h2
      have := (List.all_eq_true.1 (Bool.not_eq_false _ ▸ hcons)) j (by simpa using hj)
      rw [decide_eq_true_iff] at this
      have h3 := colSum_getD (by simpa using hj) hlen'
      rw [List.map_map] at h3
      rw [← List.getD_eq_getElem _ 0 h1, ← List.getD_eq_getElem _ 0 h2, h3]
      exact this
    match r2, hr2, hp with
    | [], _, _ => exact Post.fail
    | s :: ss, hr2, hp =>
      obtain ⟨m1, m2⟩ := mkConst_in (vc := vc) (K := K) fl.1
      have hin : ∀ t ∈ s :: ss, OKIn vc K t := fun t ht => by
        obtain ⟨_, _, h⟩ := forall₂_mem_right hr2 ht
        exact h.2.1
      refine (mulN_in ho (hin s (by simp)) m1).bind fun s' hs' => Post.ret fun sg e => ?_
      cases e
      refine ⟨fun t ht => ?_, ?_, ?_⟩
      · rcases List.mem_cons.1 ht with rfl | h'
        exacts [hs'.1, hin t (by simp [h'])]
      · have := hr2.length_eq
        rw [hr1, List.length_map] at this
        simpa using this.symm
      · have e1 : ((s' :: ss).map val).prod = C fl.1 * facProd fl.2 := by
          rw [← facProd_perm hperm, ← hp, List.map_cons, List.prod_cons, List.map_cons, List.prod_cons, hs'.2, m2]; ring
        rw [e1]
        exact hfl.prod.imp id fun h => h.2

include ho in
theorem targets_rel {α : List (Var × ℤ)} (hα : ∀ w ∈ K, (α.lookup w).isSome = true) {δ : ℤ} : ∀ {sg : List (PV Mono ℤ)}, (∀ s ∈ sg, OKIn vc K s) →
    Post (targets true vc α δ sg) fun o => ∀ l, o = some l → List.Forall₂ (fun s T => OKIn vc K T ∧ eval (ptVal α) (val s) ≠ 0 ∧ eval (ptVal α) (val T) = δ ∧ C (eval (ptVal α) (val s)) * val T = C δ * val s) sg l
  | [], _ => Post.ret fun l e => by cases e; exact List.Forall₂.nil
  | s :: ss, hs => by
    unfold targets
    refine Post.bind (P := fun o => ∀ T, o = some T → OKIn vc K T ∧ eval (ptVal α) (val s) ≠ 0 ∧ eval (ptVal α) (val T) = δ ∧ C (eval (ptVal α) (val s)) * val T = C δ * val s) ?_ fun o hq => ?_
    · have hs' := hs s (by simp)
      unfold target
      dsimp only
      rw [assignAt_const ho hs'.1 fun w hw => hα w (hs'.2 hw)]
      refine Post.ite (fun _ => Post.ret fun _ h => by cases h) fun v0 => Post.ite (fun _ => Post.fail) fun hd => ?_
      obtain ⟨a, b⟩ := mkConst_in (vc := vc) (K := K) (Int.tdiv δ (eval (ptVal α) (val s)))
      refine (mulN_in ho hs' a).bind fun t ht => Post.ret fun T e => ?_
      cases e
      have h1 := Int.mul_tdiv_cancel' (Int.dvd_of_tmod_eq_zero (not_not.1 hd))
      refine ⟨ht.1, v0, ?_, ?_⟩
      · rw [ht.2, b, map_mul, eval_C]; exact h1
      · rw [ht.2, b, ← h1, C_mul]
        simp only [Int.mul_tdiv_cancel_left _ v0]
        ring
    match o, hq with
    | none, _ => exact Post.ret fun l e => by cases e
    | some t, hq =>
      refine (targets_rel hα fun s h => hs s (by simp [h])).bind fun r hr => Post.ret fun l e => ?_
      match r, hr, e with
      | some r, hr, e =>
        rw [Option.map_some] at e
        cases e
        exact List.Forall₂.cons (hq _ rfl) (hr r rfl)

/-- products of `σ_i` and of `τ_i` -/
theorem rel_prod {a : Var → ℤ} {δ : ℤ} {Q : PV Mono ℤ → PV Mono ℤ → Prop} : ∀ {sg ts : List (PV Mono ℤ)}, List.Forall₂ (fun s T => Q s T ∧ C (eval a (val s)) * val T = C δ * val s) sg ts →
    C (eval a (sg.map val).prod) * (ts.map val).prod = C (δ ^ sg.length) * (sg.map val).prod
  | [], [], _ => by simp
  | s :: sg, T :: ts, List.Forall₂.cons h hs => by
    have := rel_prod hs
    rw [List.map_cons, List.prod_cons, List.map_cons, List.prod_cons, map_mul, C_mul, List.length_cons, pow_succ, C_mul]
    calc _ = (C (eval a (val s)) * val T) * (C (eval a (sg.map val).prod) * (ts.map val).prod) := by ring
      _ = _ := by rw [h.2, this]; ring

include ho in
/-- `__wang_leading_coeff`: on success the product of the targets is `δ^(r-1)·L` -/
theorem wangLc_prod {fuel : ℕ} {f : PV Mono ℤ} {x : Var} (hf : OKIn vc (insert x K) f) {us : List (UPoly ℤ)} (hu : us ≠ [])
    {α : List (Var × ℤ)} (hα : ∀ w ∈ K, (α.lookup w).isSome = true) (hfac : Post (facL (leadIn vc (lexGt vc) f x).1) fun r => FacX False vc (lexGt vc) (val (leadIn vc (lexGt vc) f x).1) r.1 r.2) (c : ℤ) :
    Post (wangLc true vc fuel facL f us α x c) fun o => ∀ w, o = some w → w.2.2.length = us.length ∧
      (w.2.2.map val).prod = C (eval (ptVal α) (val (leadIn vc (lexGt vc) f x).1) ^ (us.length - 1)) * val (leadIn vc (lexGt vc) f x).1 := by
  have M := lex_ord ho
  obtain ⟨_, l2, l3⟩ := leadIn_spec M hf.1 x
  unfold wangLc
  dsimp only
  obtain ⟨L, hL⟩ : ∃ L, L = (leadIn vc (lexGt vc) f x).1 := ⟨_, rfl⟩
  rw [← hL] at l2 l3 hfac ⊢
  have hLK : OKIn vc K L := ⟨l2, fun w hw => by
    have h1 := hf.2 (l3.vars_subset hw)
    rcases Finset.mem_insert.1 h1 with e | e
    · exact absurd (e ▸ hw) l3.not_vars
    · exact e⟩
  have hδ : constVal (if isNumber L = true then L else assignAt vc α L) = eval (ptVal α) (val L) := by
    by_cases hn : isNumber L = true
    · rw [if_pos hn, number_val ho l2 hn, eval_C]
    · rw [if_neg hn]; exact assignAt_const ho l2 fun w hw => hα w (hLK.2 hw)
  rw [hδ]
  obtain ⟨δ, hd⟩ : ∃ δ, δ = eval (ptVal α) (val L) := ⟨_, rfl⟩
  rw [← hd]
  refine Post.ite (fun _ => Post.ret fun _ h => by cases h) fun δ0 => ?_
  have L0 : val L ≠ 0 := fun e => δ0 (by rw [hd, e, map_zero])
  have hpos : 0 < us.length := List.length_pos_iff.2 hu
  refine Post.bind (P := fun o => ∀ sg, o = some sg → (∀ s ∈ sg, OKIn vc K s) ∧ sg.length = us.length ∧ ((sg.map val).prod = val L ∨ (sg.map val).prod = -val L)) (Post.ite (fun _ => Post.ret fun sg e => ?_) fun _ => splitLc_prod ho hLK L0 hfac us α c) fun o hq => ?_
  · cases e
    refine ⟨fun s hs => ?_, by simp; omega, .inl ?_⟩
    · rcases List.mem_cons.1 hs with rfl | h
      · exact hLK
      · obtain ⟨_, _, rfl⟩ := List.mem_map.1 h
        exact one_in
    · rw [List.map_cons, List.prod_cons, List.map_map]
      have : ((us.tail.map (val ∘ fun _ => [((Mono.one, 1) : Mono × ℤ)])).prod) = 1 := by
        refine List.prod_eq_one fun z hz => ?_
        obtain ⟨_, _, rfl⟩ := List.mem_map.1 hz
        simp [val_cons, val_nil, expo_one]
      rw [this, mul_one]
  match o, hq with
  | none, _ => exact Post.ret fun _ h => by cases h
  | some sg, hq =>
    obtain ⟨q1, q2, q3⟩ := hq sg rfl
    refine (Post.any _).bind fun fs _ => (Post.any _).bind fun vs _ => (targets_rel ho hα q1).bind fun o ht => Post.ret fun w e => ?_
    match o, ht, e with
    | some ts, ht, e =>
      rw [Option.map_some] at e
      cases e
      have ht' := ht ts rfl
      refine ⟨by rw [← q2]; exact ht'.length_eq.symm, ?_⟩
      have h1 := rel_prod (Q := fun _ _ => True) (ht'.imp fun _ _ h => ⟨trivial, h.2.2.2⟩)
      have hC : (C δ : MvPolynomial Var ℤ) ≠ 0 := fun e => δ0 (C_injective _ _ (by rw [e, C_0]))
      refine mul_left_cancel₀ hC ?_
      dsimp only
      rw [← mul_assoc, ← C_mul, ← pow_succ', Nat.sub_add_cancel hpos]
      rw [q2] at h1
      rcases q3 with e | e <;> rw [e] at h1
      · rw [← hd] at h1; exact h1
      · rw [map_neg, ← hd, C_neg, neg_mul, mul_neg] at h1
        exact neg_injective h1

end

end Mtshl
end CLPoly
