import Verif.Num.IO
import Verif.Print.Spec
import Verif.Props.NumQQ

/-!
# Property C101: output and input of numbers

`z.out`, `q.out`: what `operator<<` writes; `ZZ.read s z`, `QQ.read s q`: `operator>>` on a stream that begins with the text `s` (Num/IO.lean).  `Canon`: the valid representations (C02, C06).
-/

namespace CLPoly
open Print

/-- **specification**: the text is a number: an optional minus sign and at least one digit; `v` is its value -/
def IsNumeral (s : List Char) (v : ℤ) : Prop :=
  ∃ ds : List Char, ds ≠ [] ∧ (∀ c ∈ ds, c.isDigit = true) ∧ (s = ds ∧ v = (readNat ds : ℤ) ∨ s = '-' :: ds ∧ v = -(readNat ds : ℤ))

theorem IsNumeral.decimalZ (a : ℤ) : IsNumeral (decimalZ a) a := by
  refine ⟨decimal a.natAbs, decimal_ne _, fun c hc => decimal_digit hc, ?_⟩
  rw [readNat_decimal]
  unfold Print.decimalZ
  split
  · exact .inr ⟨rfl, by omega⟩
  · exact .inl ⟨rfl, by omega⟩

theorem isSpace_digit {c : Char} (h : c.isDigit = true) : isSpace c = false := by
  have h' : 48 ≤ c.toNat ∧ c.toNat ≤ 57 := by
    simp only [Char.isDigit, Bool.and_eq_true, decide_eq_true_eq] at h
    exact ⟨h.1, h.2⟩
  simp only [isSpace, Bool.or_eq_false_iff, decide_eq_false_iff_not, Bool.and_eq_false_iff]
  exact ⟨fun e => by subst e; simp at h', .inr (by omega)⟩

theorem ne_digit {c d : Char} (h : c.isDigit = true) (hd : d.isDigit = false) : c ≠ d := fun e => by rw [e, hd] at h; cases h

theorem takeWhile_all {α : Type*} {p : α → Bool} {l : List α} (h : ∀ a ∈ l, p a = true) : l.takeWhile p = l := List.takeWhile_eq_self_iff.2 h

theorem dropWhile_none {α : Type*} {p : α → Bool} {l : List α} (h : ∀ a ∈ l, p a = false) : l.dropWhile p = l := by
  cases l with
  | nil => rfl
  | cons a l => rw [List.dropWhile_cons_of_neg (by simp [h a (by simp)])]

theorem gmpDigits_iff {t : List Char} (h : ∀ c ∈ t, isSpace c = false) {n : ℕ} : gmpDigits t = some n ↔ t ≠ [] ∧ (∀ c ∈ t, c.isDigit = true) ∧ n = readNat t := by
  have hf : t.filter (fun c => !isSpace c) = t := List.filter_eq_self.2 fun c hc => by simp [h c hc]
  cases t with
  | nil => simp [gmpDigits]
  | cons c t =>
    unfold gmpDigits
    simp only
    rw [hf]
    by_cases hc : c.isDigit = false
    · rw [if_pos hc]
      refine ⟨fun e => (by cases e), fun ⟨_, e, _⟩ => ?_⟩
      rw [e c (by simp)] at hc; cases hc
    · rw [if_neg hc]
      by_cases ha : (c :: t).all Char.isDigit = true
      · rw [if_pos ha]
        rw [List.all_eq_true] at ha
        exact ⟨fun e => ⟨by simp, ha, (Option.some.inj e).symm⟩, fun e => by rw [e.2.2]⟩
      · rw [if_neg ha]
        exact ⟨fun e => (by cases e), fun e => absurd (List.all_eq_true.2 e.2.1) ha⟩

/-- GMP reads exactly the numerals, if there is no white space and no null character in the text -/
theorem gmpSetStr_iff {s : List Char} (h : ∀ c ∈ s, isSpace c = false ∧ c ≠ Char.ofNat 0) {v : ℤ} : gmpSetStr s = some v ↔ IsNumeral s v := by
  have h1 : s.takeWhile (· ≠ Char.ofNat 0) = s := takeWhile_all fun c hc => by simpa using (h c hc).2
  have h2 : s.dropWhile isSpace = s := dropWhile_none fun c hc => (h c hc).1
  unfold gmpSetStr
  rw [h1, h2]
  cases s with
  | nil => exact ⟨fun e => (by cases e), fun ⟨ds, h0, _, e⟩ => by rcases e with ⟨e, -⟩ | ⟨e, -⟩ <;> simp_all⟩
  | cons c t =>
    simp only
    by_cases hc : c = '-'
    · rw [if_pos hc, Option.map_eq_some_iff]
      constructor
      · rintro ⟨n, hn, rfl⟩
        obtain ⟨a, b, e⟩ := (gmpDigits_iff fun c hc => (h c (by simp [hc])).1).1 hn
        exact ⟨t, a, b, .inr ⟨by rw [hc], by rw [e]⟩⟩
      · rintro ⟨ds, h0, hd, e⟩
        rcases e with ⟨e, -⟩ | ⟨e, ev⟩
        · exact absurd (hd c (by rw [← e]; simp)) (by rw [hc]; decide)
        · rw [hc, List.cons.injEq] at e
          exact ⟨readNat ds, (gmpDigits_iff fun c hc => (h c (by simp [hc])).1).2 ⟨by rw [e.2]; exact h0, by rw [e.2]; exact hd, by rw [e.2]⟩, ev.symm⟩
    · rw [if_neg hc, Option.map_eq_some_iff]
      constructor
      · rintro ⟨n, hn, rfl⟩
        obtain ⟨a, b, e⟩ := (gmpDigits_iff fun c hc => (h c hc).1).1 hn
        exact ⟨c :: t, a, b, .inl ⟨rfl, by rw [e]⟩⟩
      · rintro ⟨ds, h0, hd, e⟩
        rcases e with ⟨e, ev⟩ | ⟨e, -⟩
        · exact ⟨readNat ds, (gmpDigits_iff fun c hc => (h c hc).1).2 ⟨by rw [e]; exact h0, by rw [e]; exact hd, by rw [e]⟩, ev.symm⟩
        · exact absurd (List.cons.inj e).1 hc

theorem word_space {s : List Char} {c : Char} (h : c ∈ word s) : isSpace c = false := by
  have := List.mem_takeWhile_imp h
  simpa using this

/-- reading a word -/
theorem word_app {w t r : List Char} (hw : ∀ c ∈ w, isSpace c = true) (ht : ∀ c ∈ t, isSpace c = false) (t0 : t ≠ []) (hr : ∀ c s, r = c :: s → isSpace c = true) :
    word (w ++ (t ++ r)) = t ∧ after (w ++ (t ++ r)) = r := by
  have h1 : (w ++ (t ++ r)).dropWhile isSpace = t ++ r := by
    rw [List.dropWhile_append_of_pos hw]
    obtain ⟨c, u, rfl⟩ := List.exists_cons_of_ne_nil t0
    rw [List.cons_append, List.dropWhile_cons_of_neg (by simp [ht c (by simp)])]
  have hp : ∀ c ∈ t, (fun c => !isSpace c) c = true := fun c hc => by simp [ht c hc]
  unfold word after
  rw [h1, List.takeWhile_append_of_pos hp, List.dropWhile_append_of_pos hp]
  cases r with
  | nil => simp
  | cons c s =>
    have := hr c s rfl
    rw [List.takeWhile_cons_of_neg (by simp [this]), List.dropWhile_cons_of_neg (by simp [this]), List.append_nil]
    exact ⟨rfl, rfl⟩

theorem IsNumeral.free {s : List Char} {v : ℤ} (h : IsNumeral s v) : s ≠ [] ∧ '/' ∉ s ∧ ∀ c ∈ s, isSpace c = false ∧ c ≠ Char.ofNat 0 := by
  obtain ⟨ds, h0, hd, e⟩ := h
  have hds : ∀ c ∈ ds, isSpace c = false ∧ c ≠ Char.ofNat 0 := fun c hc => ⟨isSpace_digit (hd c hc), ne_digit (hd c hc) (by decide)⟩
  have hsl : '/' ∉ ds := fun hm => ne_digit (hd _ hm) (d := '/') (by decide) rfl
  rcases e with ⟨rfl, -⟩ | ⟨rfl, -⟩
  · exact ⟨h0, hsl, hds⟩
  · refine ⟨by simp, by simp [hsl], fun c hc => ?_⟩
    rcases List.mem_cons.1 hc with rfl | hc
    · exact ⟨by decide, by decide⟩
    · exact hds c hc

theorem ZZ.out_eq (z : ZZ) : z.out = Print.decimalZ z.val := by cases z <;> rfl

theorem ofStr_numeral {s : List Char} {v : ℤ} (h : IsNumeral s v) : ZZ.ofStr s = .ok (ZZ.demote v) := by
  unfold ZZ.ofStr
  rw [(gmpSetStr_iff h.free.2.2).2 h]

/-- what is written is read back: the same integer in the same representation, whatever `z0` was; white space in front is skipped, and the reading stops at white space -/
theorem C101_ZZ_roundtrip {z : ZZ} (hz : z.Canon) {w r : List Char} (hw : ∀ c ∈ w, isSpace c = true) (hr : ∀ c s, r = c :: s → isSpace c = true) (z0 : ZZ) :
    ZZ.read (w ++ (z.out ++ r)) z0 = .ok (z, r) := by
  have hn : IsNumeral z.out z.val := by rw [ZZ.out_eq]; exact IsNumeral.decimalZ _
  obtain ⟨h1, h2⟩ := word_app hw (fun c hc => (hn.free.2.2 c hc).1) hn.free.1 hr
  unfold ZZ.read
  rw [h1, h2, if_neg hn.free.1, ofStr_numeral hn, ZZ.canon_ext (ZZ.demote_canon _) hz (ZZ.demote_val _)]
  rfl

/-- every text without null characters: nothing is read and the value kept at the end of the stream; else the word is read if it is a numeral, with its value in canonical representation, and any other word is an exception -/
theorem C101_ZZ_read (s : List Char) (hs : Char.ofNat 0 ∉ s) (z0 : ZZ) :
    (word s = [] → ZZ.read s z0 = .ok (z0, [])) ∧
      (∀ v, IsNumeral (word s) v → ∃ z, ZZ.read s z0 = .ok (z, after s) ∧ z.Canon ∧ z.val = v) ∧ (word s ≠ [] → (∀ v, ¬ IsNumeral (word s) v) → ZZ.read s z0 = .throws) := by
  have hw : ∀ c ∈ word s, isSpace c = false ∧ c ≠ Char.ofNat 0 := fun c hc => ⟨word_space hc, fun e => hs (by
    rw [← e]
    exact (List.dropWhile_sublist _).subset ((List.takeWhile_sublist _).subset hc))⟩
  refine ⟨fun h => ?_, fun v hv => ?_, fun h0 hv => ?_⟩
  · have : after s = [] := by
      unfold word after at *
      cases e : s.dropWhile isSpace with
      | nil => rfl
      | cons c t =>
        have hc : isSpace c = false := by
          have := List.head?_dropWhile_not isSpace s
          rw [e] at this
          simpa using this
        rw [e, List.takeWhile_cons_of_pos (by simp [hc])] at h
        cases h
    unfold ZZ.read
    rw [if_pos h, this]
  · refine ⟨ZZ.demote v, ?_, ZZ.demote_canon _, ZZ.demote_val _⟩
    unfold ZZ.read
    rw [if_neg hv.free.1, ofStr_numeral hv]
    rfl
  · unfold ZZ.read ZZ.ofStr
    cases e : gmpSetStr (word s) with
    | none => rw [if_neg h0]; rfl
    | some v => exact absurd ((gmpSetStr_iff hw).1 e) (hv v)

/-- a rational number has one valid representation -/
theorem QQ.canon_ext {p q : QQ} (hp : p.Canon) (hq : q.Canon) (h : p.toRat = q.toRat) : p = q := by
  obtain ⟨n, d⟩ := p
  obtain ⟨m, e⟩ := q
  obtain ⟨a1, a2, a3, a4⟩ := hp
  obtain ⟨b1, b2, b3, b4⟩ := hq
  have := Rat.div_int_inj a3 b3 (by simpa [Nat.Coprime, Int.gcd] using a4) (by simpa [Nat.Coprime, Int.gcd] using b4) h
  exact congrArg₂ QQ.mk (ZZ.canon_ext a1 b1 this.1) (ZZ.canon_ext a2 b2 this.2)

/-- what is written is read back: the same rational number in the same representation -/
theorem C101_QQ_roundtrip {q : QQ} (hq : q.Canon) {w r : List Char} (hw : ∀ c ∈ w, isSpace c = true) (hr : ∀ c s, r = c :: s → isSpace c = true) (q0 : QQ) :
    QQ.read (w ++ (q.out ++ r)) q0 = (q, .ok r) := by
  obtain ⟨n, d⟩ := q
  obtain ⟨hn, hd, hpos, hc⟩ := hq
  dsimp only at hn hd hpos hc
  have nn : IsNumeral n.out n.val := by rw [ZZ.out_eq]; exact IsNumeral.decimalZ _
  have nd : IsNumeral d.out d.val := by rw [ZZ.out_eq]; exact IsNumeral.decimalZ _
  have en : ZZ.ofStr n.out = .ok n := by rw [ofStr_numeral nn, ZZ.canon_ext (ZZ.demote_canon _) hn (ZZ.demote_val _)]
  have ed : ZZ.ofStr d.out = .ok d := by rw [ofStr_numeral nd, ZZ.canon_ext (ZZ.demote_canon _) hd (ZZ.demote_val _)]
  have hsp : ∀ c ∈ (QQ.mk n d).out, isSpace c = false := fun c hc => by
    unfold QQ.out at hc
    rcases List.mem_append.1 hc with hc | hc
    · exact (nn.free.2.2 c hc).1
    · split at hc
      · rcases List.mem_cons.1 hc with rfl | hc
        · decide
        · exact (nd.free.2.2 c hc).1
      · cases hc
  have h0 : (QQ.mk n d).out ≠ [] := by simp [QQ.out, nn.free.1]
  obtain ⟨h1, h2⟩ := word_app hw hsp h0 hr
  unfold QQ.read
  rw [h1, h2]
  by_cases hd1 : d.val = 1
  · have eo : (QQ.mk n d).out = n.out := by unfold QQ.out; rw [if_neg (by simpa using hd1), List.append_nil]
    rw [eo, if_pos nn.free.2.1, en]
    have : d = ZZ.small 1 := ZZ.canon_ext hd (by decide) (by rw [hd1]; rfl)
    rw [this]
  · have eo : (QQ.mk n d).out = n.out ++ '/' :: d.out := by unfold QQ.out; rw [if_pos (by simpa using hd1)]
    have hp : ∀ c ∈ n.out, (fun c => decide (c ≠ '/')) c = true := fun c hc => by simpa using fun e => nn.free.2.1 (by rw [← e]; exact hc)
    have e1 : (n.out ++ '/' :: d.out).takeWhile (· ≠ '/') = n.out := by
      rw [List.takeWhile_append_of_pos hp, List.takeWhile_cons_of_neg (by simp), List.append_nil]
    have e2 : ((n.out ++ '/' :: d.out).dropWhile (· ≠ '/')).tail = d.out := by
      rw [List.dropWhile_append_of_pos hp, List.dropWhile_cons_of_neg (by simp), List.tail_cons]
    rw [eo, if_neg (by simp), e1, e2, en]
    dsimp only
    rw [ed]
    dsimp only
    obtain ⟨q', e, c', v'⟩ := QQ.canonicalize_spec ⟨n, d⟩ hn hd hpos.ne'
    have : q' = ⟨n, d⟩ := by
      have cq : (QQ.mk n d).Canon := ⟨hn, hd, hpos, hc⟩
      exact QQ.canon_ext c' cq v'
    rw [e, this]

/-- every word `a` or `a/b` with numerals `a`, `b` and `b ≠ 0` is read as the quotient, in canonical representation; every other word without null characters is an exception, except `a/0`.
Missing: the word `a/0` (`C101_QQ_invalid_refuted`). -/
theorem C101_QQ_read_partial (s : List Char) (hs : Char.ofNat 0 ∉ s) (q0 : QQ) :
    (∀ a, IsNumeral (word s) a → ∃ q, QQ.read s q0 = (q, .ok (after s)) ∧ q.Canon ∧ q.toRat = a) ∧
      (∀ x y a b, word s = x ++ '/' :: y → IsNumeral x a → IsNumeral y b → b ≠ 0 → ∃ q, QQ.read s q0 = (q, .ok (after s)) ∧ q.Canon ∧ q.toRat = a / b) ∧
      ((∀ a, ¬ IsNumeral (word s) a) → (∀ x y a b, word s = x ++ '/' :: y → IsNumeral x a → ¬ IsNumeral y b) → (QQ.read s q0).2 = .throws) := by
  have hw : ∀ c ∈ word s, isSpace c = false ∧ c ≠ Char.ofNat 0 := fun c hc => ⟨word_space hc, fun e => hs (by
    rw [← e]
    exact (List.dropWhile_sublist _).subset ((List.takeWhile_sublist _).subset hc))⟩
  refine ⟨fun a ha => ?_, fun x y a b e hx hy b0 => ?_, fun h1 h2 => ?_⟩
  · refine ⟨⟨ZZ.demote a, ZZ.small 1⟩, ?_, ⟨ZZ.demote_canon _, (by decide : (ZZ.small 1).Canon), (by decide : 0 < (ZZ.small 1).val), by simp⟩, by simp [QQ.toRat, ZZ.demote_val]⟩
    unfold QQ.read
    rw [if_pos ha.free.2.1, ofStr_numeral ha]
  · have hp : ∀ c ∈ x, (fun c => decide (c ≠ '/')) c = true := fun c hc => by simpa using fun e => hx.free.2.1 (by rw [← e]; exact hc)
    have e1 : (x ++ '/' :: y).takeWhile (· ≠ '/') = x := by
      rw [List.takeWhile_append_of_pos hp, List.takeWhile_cons_of_neg (by simp), List.append_nil]
    have e2 : ((x ++ '/' :: y).dropWhile (· ≠ '/')).tail = y := by
      rw [List.dropWhile_append_of_pos hp, List.dropWhile_cons_of_neg (by simp), List.tail_cons]
    obtain ⟨q', e', c', v'⟩ := QQ.canonicalize_spec ⟨ZZ.demote a, ZZ.demote b⟩ (ZZ.demote_canon _) (ZZ.demote_canon _) (by rw [ZZ.demote_val]; exact b0)
    refine ⟨q', ?_, c', by rw [v', ZZ.demote_val, ZZ.demote_val]⟩
    unfold QQ.read
    rw [e, if_neg (by simp), e1, e2, ofStr_numeral hx]
    dsimp only
    rw [ofStr_numeral hy]
    dsimp only
    rw [e']
  · unfold QQ.read
    by_cases hsl : '/' ∉ word s
    · rw [if_pos hsl]
      unfold ZZ.ofStr
      cases e : gmpSetStr (word s) with
      | none => rfl
      | some v => exact absurd ((gmpSetStr_iff hw).1 e) (h1 v)
    · rw [if_neg hsl]
      push Not at hsl
      have hsplit : word s = (word s).takeWhile (· ≠ '/') ++ '/' :: ((word s).dropWhile (· ≠ '/')).tail := by
        conv_lhs => rw [← List.takeWhile_append_dropWhile (p := (· ≠ '/')) (l := word s)]
        congr 1
        cases e : (word s).dropWhile (· ≠ '/') with
        | nil => exact absurd (List.dropWhile_eq_nil_iff.1 e _ hsl) (by simp)
        | cons c t =>
          have := List.head?_dropWhile_not (fun c => decide (c ≠ '/')) (word s)
          rw [e] at this
          simp only [List.head?_cons, decide_not, Bool.not_eq_true', Bool.not_eq_false', decide_eq_true_eq] at this
          rw [this, List.tail_cons]
      obtain ⟨x, hx⟩ : ∃ x, x = (word s).takeWhile (· ≠ '/') := ⟨_, rfl⟩
      obtain ⟨y, hy⟩ : ∃ y, y = ((word s).dropWhile (· ≠ '/')).tail := ⟨_, rfl⟩
      rw [← hx, ← hy] at hsplit ⊢
      unfold ZZ.ofStr
      cases e : gmpSetStr x with
      | none => rfl
      | some a =>
        cases e' : gmpSetStr y with
        | none => rfl
        | some b =>
          exact absurd ((gmpSetStr_iff fun c hc => hw c (by rw [hsplit]; simp [hc])).1 e') (h2 x y a b hsplit ((gmpSetStr_iff fun c hc => hw c (by rw [hsplit]; simp [hc])).1 e))

/-- **the claim is false for invalid input**: the text `3/0` is read, without an exception, as a rational with the denominator 0 (`QQ(3, 0)` throws); and the text `3/x` throws but leaves `q = 1/3` as `3/3` -/
theorem C101_QQ_invalid_refuted :
    QQ.read "3/0".toList ⟨ZZ.small 1, ZZ.small 3⟩ = (⟨ZZ.small 1, ZZ.small 0⟩, .ok []) ∧ QQ.mk' (ZZ.small 3) (ZZ.small 0) = .throws ∧
      QQ.read "3/x".toList ⟨ZZ.small 1, ZZ.small 3⟩ = (⟨ZZ.small 3, ZZ.small 3⟩, .throws) ∧ (⟨ZZ.small 1, ZZ.small 3⟩ : QQ).Canon ∧ ¬ (⟨ZZ.small 3, ZZ.small 3⟩ : QQ).Canon := by
  refine ⟨by decide +kernel, by decide +kernel, by decide +kernel, by unfold QQ.Canon; decide +kernel, by unfold QQ.Canon; decide +kernel⟩

/-- an integer beyond 64 bits, a fraction that is cancelled, a negative denominator, and a text that is no number -/
example : ZZ.read " -9223372036854775809 7".toList (ZZ.small 5) = .ok (ZZ.big (-9223372036854775809), " 7".toList) ∧
    QQ.read "6/-4".toList ⟨ZZ.small 0, ZZ.small 1⟩ = (⟨ZZ.small (-3), ZZ.small 2⟩, .ok []) ∧ ZZ.read "+5".toList (ZZ.small 1) = .throws := by
  refine ⟨by decide +kernel, by decide +kernel, by decide +kernel⟩

end CLPoly
