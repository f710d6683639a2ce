import Verif.Print.Read
import Verif.Mono.Sys
import Verif.Upoly.Basic
import Mathlib.Data.Nat.Digits.Lemmas
import Mathlib.Data.Rat.Lemmas
import Mathlib.Tactic.FieldSimp

/-! # Output is read back -/

namespace CLPoly
namespace Print
open Mono

/-! ## splitting -/

theorem split_free {x : Char} : ∀ {s : List Char}, x ∉ s → split x s = [s]
  | [], _ => rfl
  | c :: s, h => by
    rw [List.mem_cons, not_or] at h
    rw [split, if_neg (fun e => h.1 e.symm), split_free h.2]

theorem split_app {x : Char} : ∀ {a b : List Char}, x ∉ a → split x (a ++ x :: b) = a :: split x b
  | [], b, _ => by rw [List.nil_append, split, if_pos rfl]
  | c :: a, b, h => by
    rw [List.mem_cons, not_or] at h
    rw [List.cons_append, split, if_neg (fun e => h.1 e.symm), split_app h.2]

/-- a text without signs -/
def Plain (s : List Char) : Prop := ∀ c ∈ s, c ≠ '+' ∧ c ≠ '-'

theorem chunks_app {a b : List Char} (h : Plain a) : chunks (a ++ b) = (a ++ (chunks b).1, (chunks b).2) := by
  induction a with
  | nil => rfl
  | cons c a ih =>
    have hc := h c (by simp)
    rw [List.cons_append, chunks, ih fun d hd => h d (by simp [hd])]
    dsimp only
    rw [if_neg hc.1, if_neg hc.2]
    rfl

section
variable {A : Type*} [CommRing A] {fac : List Char → A}

theorem readSum_nil : readSum fac [] = 0 := by simp [readSum, chunks, readTerm]

theorem readSum_plus (s : List Char) : readSum fac ('+' :: s) = readSum fac s := by
  unfold readSum
  rw [chunks, if_pos rfl]
  simp [readTerm]

theorem readSum_app {a b : List Char} (h : Plain a) (hb : (chunks b).1 = []) : readSum fac (a ++ b) = readTerm fac a + readSum fac b := by
  unfold readSum
  rw [chunks_app h, hb]
  simp [readTerm]

theorem readSum_minus {a b : List Char} (h : Plain a) (hb : (chunks b).1 = []) : readSum fac ('-' :: (a ++ b)) = -readTerm fac a + readSum fac b := by
  unfold readSum
  rw [chunks, if_neg (by decide), if_pos rfl, chunks_app h, hb]
  simp [readTerm]

/-- the output of the coefficients is read correctly -/
structure IOok {R : Type} [CommRing R] (io : CoefIO R) (fac : List Char → A) (κ : R →+* A) : Prop where
  zero : fac ['0'] = 0
  negOne : ∀ c, io.isNegOne c = true → c = -1
  one : ∀ c, io.notOne c = false → c = 1 ∧ io.ge0 c = true
  out : ∀ c, ∃ t, t ≠ [] ∧ Plain t ∧ '*' ∉ t ∧ (io.out c = t ∧ io.ge0 c = true ∧ fac t = κ c ∨ io.out c = '-' :: t ∧ fac t = -κ c)

variable {R : Type} [CommRing R] {io : CoefIO R} {κ : R →+* A} {K : Type} {outM : K → List Char} {isUnit : K → Bool} {μ : K → A}

/-- the output of the monomials is read correctly -/
structure MonOK (outM : K → List Char) (isUnit : K → Bool) (fac : List Char → A) (μ : K → A) (m : K) : Prop where
  unit : isUnit m = true → μ m = 1
  ne : isUnit m = false → outM m ≠ []
  plain : isUnit m = false → Plain (outM m)
  eq : isUnit m = false → ((split '*' (outM m)).map fac).prod = μ m

theorem plain_append {a b : List Char} (ha : Plain a) (hb : Plain b) : Plain (a ++ b) := by
  intro c hc
  rcases List.mem_append.1 hc with h | h
  · exact ha c h
  · exact hb c h

theorem chunks_sign {c : Char} {s : List Char} (h : c = '+' ∨ c = '-') : (chunks (c :: s)).1 = [] := by
  rw [chunks]
  rcases h with rfl | rfl
  · simp
  · simp

theorem termsOut_cons (b : Bool) (t : K × R) (l : PV K R) : termsOut io outM isUnit b (t :: l) =
    (if b && io.ge0 t.2 then ['+'] else []) ++
      (if isUnit t.1 then io.out t.2
       else (if io.isNegOne t.2 then ['-'] else if io.notOne t.2 then io.out t.2 ++ ['*'] else []) ++ outM t.1) ++
      termsOut io outM isUnit true l := rfl

theorem terms_brk (hio : IOok io fac κ) : ∀ l : PV K R, (chunks (termsOut io outM isUnit true l)).1 = []
  | [] => rfl
  | t :: l => by
    unfold termsOut
    by_cases hg : io.ge0 t.2 = true
    · rw [if_pos (by simp [hg])]
      exact chunks_sign (.inl rfl)
    · rw [if_neg (by simp [hg]), List.nil_append]
      have hout : ∃ s, io.out t.2 = '-' :: s := by
        obtain ⟨s, -, -, -, h⟩ := hio.out t.2
        rcases h with h | h
        · exact absurd h.2.1 hg
        · exact ⟨s, h.1⟩
      obtain ⟨s, hs⟩ := hout
      by_cases hu : isUnit t.1 = true
      · rw [if_pos hu, hs]
        exact chunks_sign (.inr rfl)
      · rw [if_neg hu]
        by_cases h1 : io.isNegOne t.2 = true
        · rw [if_pos h1]
          exact chunks_sign (.inr rfl)
        · rw [if_neg h1]
          by_cases h2 : io.notOne t.2 = true
          · rw [if_pos h2, hs]
            exact chunks_sign (.inr rfl)
          · exact absurd (hio.one _ (by simpa using h2)).2 hg

theorem readTerm_tok {s : List Char} (h0 : s ≠ []) (h : '*' ∉ s) : readTerm fac s = fac s := by
  unfold readTerm
  rw [if_neg h0, split_free h]
  simp

theorem readTerm_mul {s m : List Char} (h : '*' ∉ s) : readTerm fac (s ++ '*' :: m) = fac s * ((split '*' m).map fac).prod := by
  unfold readTerm
  rw [if_neg (by simp), split_app h]
  simp

theorem terms_read (hio : IOok io fac κ) : ∀ (b : Bool) (l : PV K R), (∀ t ∈ l, MonOK outM isUnit fac μ t.1) → readSum fac (termsOut io outM isUnit b l) = (l.map fun t => κ t.2 * μ t.1).sum
  | b, [], _ => by simp [termsOut, readSum_nil]
  | b, t :: l, hl => by
    have ih := terms_read hio true l fun u hu => hl u (by simp [hu])
    have hb := terms_brk (outM := outM) (isUnit := isUnit) hio l
    have hm := hl t (by simp)
    rw [List.map_cons, List.sum_cons, ← ih, termsOut_cons]
    have key : ∀ s : List Char, readSum fac ((if (b && io.ge0 t.2) = true then ['+'] else []) ++ s) = readSum fac s := by
      intro s
      by_cases h : (b && io.ge0 t.2) = true
      · rw [if_pos h]; exact readSum_plus s
      · rw [if_neg h]; rfl
    rw [List.append_assoc, key]
    obtain ⟨s, s1, s2, s3, s4⟩ := hio.out t.2
    by_cases hu : isUnit t.1 = true
    · rw [if_pos hu, hm.unit hu, mul_one]
      rcases s4 with ⟨e, -, hf⟩ | ⟨e, hf⟩
      · rw [e, readSum_app s2 hb, readTerm_tok s1 s3, hf]
      · rw [e, List.cons_append, readSum_minus s2 hb, readTerm_tok s1 s3, hf, neg_neg]
    · rw [if_neg hu]
      rw [Bool.not_eq_true] at hu
      have hne := hm.ne hu
      have hp := hm.plain hu
      have he := hm.eq hu
      have ht : readTerm fac (outM t.1) = μ t.1 := by unfold readTerm; rw [if_neg hne, he]
      by_cases h1 : io.isNegOne t.2 = true
      · rw [if_pos h1, List.append_assoc]
        show readSum fac ('-' :: (outM t.1 ++ _)) = _
        rw [readSum_minus hp hb, ht, hio.negOne _ h1, map_neg, map_one]
        ring
      · rw [if_neg h1]
        by_cases h2 : io.notOne t.2 = true
        · rw [if_pos h2]
          have hp2 : Plain (s ++ '*' :: outM t.1) := by
            refine plain_append s2 fun c hc => ?_
            rcases List.mem_cons.1 hc with rfl | hc
            · decide
            · exact hp c hc
          rcases s4 with ⟨e, -, hf⟩ | ⟨e, hf⟩
          · rw [e, List.append_assoc s, List.singleton_append, readSum_app hp2 hb, readTerm_mul s3, he, hf]
          · rw [e]
            have e2 : '-' :: s ++ ['*'] ++ outM t.1 ++ termsOut io outM isUnit true l = '-' :: ((s ++ '*' :: outM t.1) ++ termsOut io outM isUnit true l) := by simp
            rw [e2, readSum_minus hp2 hb, readTerm_mul s3, he, hf]
            ring
        · have h3 := (hio.one t.2 (by simpa using h2)).1
          rw [if_neg h2, List.nil_append, readSum_app hp hb, ht, h3, map_one, one_mul]

theorem poly_read (hio : IOok io fac κ) (p : PV K R) (hp : ∀ t ∈ p, MonOK outM isUnit fac μ t.1) : readSum fac (polyOut io outM isUnit p) = (p.map fun t => κ t.2 * μ t.1).sum := by
  cases p with
  | nil =>
    show readSum fac (['0'] ++ []) = _
    rw [readSum_app (by intro c hc; rw [List.mem_singleton] at hc; subst hc; decide) rfl, readSum_nil, readTerm_tok (by simp) (by decide), hio.zero]
    simp
  | cons t l => exact terms_read hio false (t :: l) hp

end

/-! ## decimal numbers -/

theorem digitChar_val {d : ℕ} (h : d < 10) : (Nat.digitChar d).toNat - 48 = d ∧ (Nat.digitChar d).isDigit = true := by
  interval_cases d <;> decide

theorem readNat_decimal (n : ℕ) : readNat (decimal n) = n := by
  unfold decimal
  by_cases h : n = 0
  · rw [if_pos h, h]; rfl
  · rw [if_neg h]
    unfold readNat
    rw [List.foldl_reverse, List.foldr_map]
    have : ∀ l : List ℕ, (∀ d ∈ l, d < 10) → l.foldr (fun x y => 10 * y + ((Nat.digitChar x).toNat - 48)) 0 = Nat.ofDigits 10 l := by
      intro l
      induction l with
      | nil => intro _; rfl
      | cons d l ih =>
        intro hl
        rw [List.foldr_cons, ih fun e he => hl e (by simp [he]), Nat.ofDigits_cons, (digitChar_val (hl d (by simp))).1]
        ring
    rw [this _ fun d hd => Nat.digits_lt_base (by norm_num) hd, Nat.ofDigits_digits]

theorem decimal_digit {n : ℕ} {c : Char} (h : c ∈ decimal n) : c.isDigit = true := by
  unfold decimal at h
  by_cases h0 : n = 0
  · rw [if_pos h0, List.mem_singleton] at h; subst h; decide
  · rw [if_neg h0, List.mem_reverse, List.mem_map] at h
    obtain ⟨d, hd, rfl⟩ := h
    exact (digitChar_val (Nat.digits_lt_base (by norm_num) hd)).2

theorem decimal_ne (n : ℕ) : decimal n ≠ [] := by
  unfold decimal
  by_cases h0 : n = 0
  · rw [if_pos h0]; simp
  · rw [if_neg h0]; simpa using Nat.digits_ne_nil_iff_ne_zero.2 h0

theorem decimal_free {n : ℕ} {c : Char} (hc : c.isDigit = false) : c ∉ decimal n := fun h => by
  rw [decimal_digit h] at hc; cases hc

theorem decimal_plain (n : ℕ) : Plain (decimal n) := fun c hc => by
  have := decimal_digit hc
  constructor <;> (rintro rfl; exact absurd this (by decide))

section
variable {A : Type*} [CommRing A] {num X : List Char → A}

theorem readFactor_cons (c : Char) (s : List Char) : readFactor num X (c :: s) = if c.isDigit then num (c :: s) else
    match split '^' (c :: s) with
    | [n] => X n
    | [n, e] => X n ^ readNat e
    | _ => 0 := rfl

theorem readFactor_num {s : List Char} {c : Char} {r : List Char} (e : s = c :: r) (h : c.isDigit = true) : readFactor num X s = num s := by
  subst e
  rw [readFactor_cons, if_pos h]

theorem readFactor_decimal (n : ℕ) (r : List Char) : readFactor num X (decimal n ++ r) = num (decimal n ++ r) := by
  cases h : decimal n with
  | nil => exact absurd h (decimal_ne n)
  | cons c l => exact readFactor_num (c := c) (r := l ++ r) rfl (decimal_digit (n := n) (by rw [h]; simp))

theorem readFactor_name {n : List Char} (h : GoodName n) : readFactor num X n = X n := by
  obtain ⟨⟨c, s, e, hc⟩, h2⟩ := h
  have h3 : '^' ∉ n := fun hm => (h2 _ hm).2.2.2 rfl
  subst e
  rw [readFactor_cons, if_neg (by simp [hc]), split_free h3]

theorem readFactor_pow {n : List Char} (h : GoodName n) (k : ℕ) : readFactor num X (n ++ '^' :: decimal k) = X n ^ k := by
  obtain ⟨⟨c, s, e, hc⟩, h2⟩ := h
  have h3 : '^' ∉ n := fun hm => (h2 _ hm).2.2.2 rfl
  subst e
  rw [List.cons_append]
  rw [readFactor_cons, if_neg (by simp [hc]), ← List.cons_append, split_app h3, split_free (decimal_free (by decide))]
  show X (c :: s) ^ readNat (decimal k) = _
  rw [readNat_decimal]

end

/-! ## coefficients -/

section
variable {A : Type*} [CommRing A] {X : List Char → A}

theorem ioZZ_ok (κ : ℤ →+* A) : IOok ioZZ (readFactor (fun t => κ (readInt t)) X) κ := by
  have hd : ∀ n : ℕ, readFactor (fun t => κ (readInt t)) X (decimal n) = κ n := fun n => by
    have := readFactor_decimal (num := fun t => κ (readInt t)) (X := X) n []
    rw [List.append_nil] at this
    rw [this]
    simp only [readInt, readNat_decimal]
  refine ⟨?_, fun c h => by simpa [ioZZ] using h, fun c h => ?_, fun c => ⟨decimal c.natAbs, decimal_ne _, decimal_plain _, decimal_free (by decide), ?_⟩⟩
  · have := hd 0
    simpa [decimal] using this
  · have : c = 1 := by simpa [ioZZ] using h
    exact ⟨this, by rw [this]; rfl⟩
  · rw [hd]
    by_cases h : c < 0
    · right
      refine ⟨by show decimalZ c = _; unfold decimalZ; rw [if_pos h], ?_⟩
      rw [← map_neg]; congr 1; omega
    · left
      refine ⟨by show decimalZ c = _; unfold decimalZ; rw [if_neg h], decide_eq_true (by omega), ?_⟩
      congr 1; omega

theorem ioZp_ok (p : ℕ) [NeZero p] (κ : ZMod p →+* A) : IOok (ioZp p) (readFactor (fun t => κ (readInt t)) X) κ := by
  have hd : ∀ n : ℕ, readFactor (fun t => κ (readInt t)) X (decimal n) = κ n := fun n => by
    have := readFactor_decimal (num := fun t => κ (readInt t)) (X := X) n []
    rw [List.append_nil] at this
    rw [this]
    simp only [readInt, readNat_decimal]
  refine ⟨?_, fun c h => by simpa [ioZp] using h, fun c h => ?_, fun c => ⟨decimal c.val, decimal_ne _, decimal_plain _, decimal_free (by decide), .inl ⟨rfl, rfl, ?_⟩⟩⟩
  · have := hd 0
    simpa [decimal] using this
  · exact ⟨by simpa [ioZp] using h, rfl⟩
  · rw [hd, ZMod.natCast_zmod_val]

theorem ioQQ_ok (κ : ℚ →+* A) : IOok ioQQ (readFactor (fun t => κ (readRat t)) X) κ := by
  have hd : ∀ n d : ℕ, readFactor (fun t => κ (readRat t)) X (decimal n ++ if d ≠ 1 then '/' :: decimal d else []) = κ ((n : ℚ) / d) := fun n d => by
    rw [readFactor_decimal]
    by_cases h : d ≠ 1
    · rw [if_pos h]
      simp only [readRat]
      rw [split_app (decimal_free (by decide)), split_free (decimal_free (by decide))]
      simp only [readNat_decimal]
    · rw [if_neg h]
      push Not at h
      rw [List.append_nil]
      simp only [readRat]
      rw [split_free (decimal_free (by decide)), h]
      simp only [readNat_decimal, Nat.cast_one, div_one]
  refine ⟨?_, fun c h => by simpa [ioQQ] using h, fun c h => ?_, fun c => ⟨decimal c.num.natAbs ++ if c.den ≠ 1 then '/' :: decimal c.den else [], by simp [decimal_ne], ?_, ?_, ?_⟩⟩
  · have := hd 0 1
    simpa [decimal] using this
  · have : c = 1 := by simpa [ioQQ] using h
    exact ⟨this, by rw [this]; rfl⟩
  · refine plain_append (decimal_plain _) ?_
    by_cases h : c.den ≠ 1
    · rw [if_pos h]
      intro x hx
      rcases List.mem_cons.1 hx with rfl | hx
      · decide
      · exact decimal_plain _ x hx
    · rw [if_neg h]; intro x hx; simp at hx
  · rw [List.mem_append, not_or]
    refine ⟨decimal_free (by decide), ?_⟩
    by_cases h : c.den ≠ 1
    · rw [if_pos h, List.mem_cons, not_or]
      exact ⟨by decide, decimal_free (by decide)⟩
    · rw [if_neg h]; simp
  · rw [hd]
    have hr := Rat.num_div_den c
    by_cases h : c.num < 0
    · right
      refine ⟨by show decimalZ c.num ++ _ = _; unfold decimalZ; rw [if_pos h]; rfl, ?_⟩
      rw [← map_neg]
      congr 1
      conv_rhs => rw [← hr]
      have : ((c.num.natAbs : ℕ) : ℚ) = -(c.num : ℚ) := by
        have h2 : ((c.num.natAbs : ℕ) : ℤ) = -c.num := by omega
        rw [← Int.cast_natCast, h2]; push_cast; rfl
      rw [this, neg_div]
    · left
      refine ⟨by show decimalZ c.num ++ _ = _; unfold decimalZ; rw [if_neg h], decide_eq_true (Rat.num_nonneg.1 (by omega)), ?_⟩
      congr 1
      conv_rhs => rw [← hr]
      have : ((c.num.natAbs : ℕ) : ℚ) = (c.num : ℚ) := by
        have h2 : ((c.num.natAbs : ℕ) : ℤ) = c.num := by omega
        rw [← Int.cast_natCast, h2]
      rw [this]

end

/-! ## monomials -/

theorem GoodName.ne {n : List Char} (h : GoodName n) : n ≠ [] := by
  obtain ⟨⟨c, s, e, -⟩, -⟩ := h
  rw [e]; simp

theorem factorOut_free {name : Var → List Char} {x : Var × ℤ} (hx : 0 < x.2) (h : GoodName (name x.1)) : Plain (factorOut name x) ∧ '*' ∉ factorOut name x ∧ factorOut name x ≠ [] := by
  have e : decimalZ x.2 = decimal x.2.natAbs := by unfold decimalZ; rw [if_neg (by omega)]
  unfold factorOut
  rw [e]
  refine ⟨plain_append (fun c hc => ⟨(h.2 c hc).1, (h.2 c hc).2.1⟩) ?_, ?_, by simp [h.ne]⟩
  · split
    · intro c hc
      rcases List.mem_cons.1 hc with rfl | hc
      · decide
      · exact decimal_plain _ c hc
    · intro c hc; simp at hc
  · rw [List.mem_append, not_or]
    refine ⟨fun hm => (h.2 _ hm).2.2.1 rfl, ?_⟩
    split
    · rw [List.mem_cons, not_or]
      exact ⟨by decide, decimal_free (by decide)⟩
    · simp

theorem split_factors {name : Var → List Char} : ∀ {l : List (Var × ℤ)} {x : Var × ℤ}, (∀ y ∈ x :: l, '*' ∉ factorOut name y) →
    split '*' (factorOut name x ++ l.flatMap fun y => '*' :: factorOut name y) = (x :: l).map (factorOut name)
  | [], x, h => by rw [List.flatMap_nil, List.append_nil, split_free (h x (by simp))]; rfl
  | y :: l, x, h => by
    rw [List.flatMap_cons, List.cons_append, split_app (h x (by simp)), split_factors fun z hz => h z (by simp [List.mem_cons.1 hz])]
    rfl

section
open MvPolynomial
variable {R : Type} [CommRing R] {num : List Char → R} {var : List Char → Var} {name : Var → List Char}

theorem monomial_prod {m : Mono} {vc : Var → Var → Bool} (ho : VarOrd vc) (hm : Valid vc m) : (m.data.map fun x => (X x.1 : MvPolynomial Var R) ^ x.2.toNat).prod = monomial (expo m) 1 := by
  obtain ⟨data, deg⟩ := m
  have hs : data.Pairwise fun a b => vc a.1 b.1 = true := hm.sorted
  have hp : ∀ x ∈ data, 0 < x.2 := hm.pos
  have key : ∀ l : List (Var × ℤ), (l.map fun x => (X x.1 : MvPolynomial Var R) ^ x.2.toNat).prod = monomial (l.map fun x => Finsupp.single x.1 x.2.toNat).sum 1 := by
    intro l
    induction l with
    | nil => simp
    | cons x l ih => rw [List.map_cons, List.prod_cons, ih, List.map_cons, List.sum_cons, X_pow_eq_monomial, monomial_mul, one_mul]
  rw [key]
  rfl

theorem mono_ok {vc : Var → Var → Bool} (ho : VarOrd vc) {m : Mono} (hm : Valid vc m) (hn : ∀ x ∈ m.data, GoodName (name x.1) ∧ var (name x.1) = x.1) :
    MonOK (monoOut name) (fun m => m.data.isEmpty) (readFactor (fun t => C (num t)) fun n => X (var n)) (fun m => (monomial (expo m) 1 : MvPolynomial Var R)) m := by
  have hfac : ∀ x ∈ m.data, readFactor (fun t => C (num t)) (fun n => (X (var n) : MvPolynomial Var R)) (factorOut name x) = X x.1 ^ x.2.toNat := by
    intro x hx
    obtain ⟨h1, h2⟩ := hn x hx
    have h0 := hm.pos x hx
    unfold factorOut
    by_cases h : x.2 ≠ 1
    · have e : decimalZ x.2 = decimal x.2.natAbs := by unfold decimalZ; rw [if_neg (by omega)]
      rw [if_pos h, e, readFactor_pow h1, h2]
      congr 1; omega
    · rw [if_neg h, List.append_nil, readFactor_name h1, h2]
      push Not at h
      rw [h]; simp
  have hcons : ∀ {x : Var × ℤ} {l : List (Var × ℤ)}, m.data = x :: l → monoOut name m = factorOut name x ++ l.flatMap fun y => '*' :: factorOut name y := by
    intro x l e
    unfold monoOut
    rw [e]
  have hfree := fun x hx => factorOut_free (hm.pos x hx) (hn x hx).1
  refine ⟨fun hu => ?_, fun hu => ?_, fun hu => ?_, fun hu => ?_⟩
  · have hu : m.data = [] := by simpa using hu
    rw [← monomial_prod ho hm, hu]; simp
  all_goals
    obtain ⟨x, l, e⟩ : ∃ x l, m.data = x :: l := by
      cases h : m.data with
      | nil => simp [h] at hu
      | cons x l => exact ⟨x, l, rfl⟩
    rw [hcons e]
    rw [e] at hfree
  · simp [(hfree x (by simp)).2.2]
  · refine plain_append (hfree x (by simp)).1 fun c hc => ?_
    rw [List.mem_flatMap] at hc
    obtain ⟨y, hy, hc⟩ := hc
    rcases List.mem_cons.1 hc with rfl | hc
    · decide
    · exact (hfree y (by simp [hy])).1 c hc
  · rw [split_factors fun y hy => (hfree y hy).2.1, List.map_map, ← monomial_prod ho hm, ← e]
    congr 1
    exact List.map_congr_left fun y hy => hfac y hy

end

section
variable {R : Type} [CommRing R] {num : List Char → R}
open Polynomial

theorem umono_ok (d : ℕ) : MonOK umonoOut (fun d => decide (d = 0)) (readFactor (fun t => C (num t)) fun n => if n = ['#'] then (X : R[X]) else 0) (fun d => (X : R[X]) ^ d) d := by
  have hg : GoodName ['#'] := ⟨⟨'#', [], rfl, by decide⟩, fun c hc => by rw [List.mem_singleton] at hc; subst hc; decide⟩
  refine ⟨fun hu => ?_, fun hu => ?_, fun hu => ?_, fun hu => ?_⟩
  · have : d = 0 := by simpa using hu
    rw [this, pow_zero]
  all_goals
    have hd : d ≠ 0 := by simpa using hu
    unfold umonoOut
    rw [if_neg hd]
  · simp
  · intro c hc
    rcases List.mem_cons.1 hc with rfl | hc
    · decide
    · split at hc
      · rcases List.mem_cons.1 hc with rfl | hc
        · decide
        · exact decimal_plain _ c hc
      · simp at hc
  · by_cases h1 : d ≠ 1
    · rw [if_pos h1, split_free, List.map_singleton, List.prod_singleton]
      · have := readFactor_pow (num := fun t => C (num t)) (X := fun n => if n = ['#'] then (X : R[X]) else 0) hg d
        rw [List.singleton_append] at this
        rw [this, if_pos rfl]
      · rw [List.mem_cons, List.mem_cons, not_or, not_or]
        exact ⟨by decide, by decide, decimal_free (by decide)⟩
    · rw [if_neg h1]
      push Not at h1
      rw [split_free (by decide), List.map_singleton, List.prod_singleton, readFactor_name hg, if_pos rfl, h1, pow_one]

end

end Print
end CLPoly
