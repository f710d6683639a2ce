import Verif.Poly.Codec

/-! # The two codecs: round trip, order, addition -/

namespace CLPoly
open Mono
variable {vc : Var → Var → Bool}

/-- what the heap algorithms need of a packing, on the monomials satisfying `B` -/
structure Codec (vc : Var → Var → Bool) (mc : Mono → Mono → Bool) (pack : Mono → Nat) (unpack : Nat → Mono)
    (B : Mono → Prop) : Prop where
  valid : ∀ m, B m → Valid vc m
  round : ∀ m, B m → unpack (pack m) = m
  lt : ∀ a b, B a → B b → mc a b = true → pack b < pack a
  add : ∀ a b, B a → B b → B (mul vc a b) → addW (pack a) (pack b) = pack (mul vc a b)

/-- monomial over `vars` with total degree below the capacity of a grlex field (the whole word for one variable) -/
structure FitsGr (vc : Var → Var → Bool) (vars : List Var) (m : Mono) : Prop where
  valid : Valid vc m
  sub : ∀ x ∈ m.data, x.1 ∈ vars
  cap : m.deg < if vars.length ≤ 1 then 2 ^ 63 else 2 ^ (64 / (vars.length + 1))

/-- monomial over `vars` with all exponents below the capacity of a lex field -/
structure FitsLex (vc : Var → Var → Bool) (vars : List Var) (m : Mono) : Prop where
  valid : Valid vc m
  sub : ∀ x ∈ m.data, x.1 ∈ vars
  cap : ∀ x ∈ m.data, x.2 < if vars.length ≤ 1 then 2 ^ 63 else 2 ^ (64 / vars.length)

theorem deg_nonneg {m : Mono} (h : Valid vc m) : 0 ≤ m.deg := by
  rw [h.deg]
  apply List.sum_nonneg
  intro x hx
  obtain ⟨y, hy, rfl⟩ := List.mem_map.1 hx
  exact (h.pos y hy).le

theorem le_deg {m : Mono} (h : Valid vc m) {x : Var × Int} (hx : x ∈ m.data) : x.2 ≤ m.deg := by
  rw [h.deg]
  apply List.single_le_sum
  · intro y hy
    obtain ⟨z, hz, rfl⟩ := List.mem_map.1 hy
    exact (h.pos z hz).le
  · exact List.mem_map.2 ⟨x, hx, rfl⟩

theorem E_le_of {d : List (Var × Int)} (ho : VarOrd vc) (hs : SortedV vc d) {c : Int} (hc : 0 < c) (h : ∀ x ∈ d, x.2 < c) (v : Var) :
    E d v < c := by
  by_cases h0 : E d v = 0
  · omega
  · obtain ⟨x, hx, rfl⟩ := exists_of_E h0
    rw [E_mem ho hs hx]; exact h x hx

theorem digs_lt (ho : VarOrd vc) {vars : List Var} {d : List (Var × Int)} (hs : SortedV vc d) (hp : ∀ x ∈ d, 0 < x.2) {B : Nat} (hB : 0 < B)
    (h : ∀ x ∈ d, x.2 < (B : Int)) : ∀ y ∈ digs vars d, y < B := by
  intro y hy
  obtain ⟨v, _, rfl⟩ := List.mem_map.1 hy
  have := E_le_of ho hs (by exact_mod_cast hB) h v
  have := E_nonneg hp v
  omega

theorem digs_length (vars : List Var) (d : List (Var × Int)) : (digs vars d).length = vars.length := by simp [digs]

theorem digs_nil (vars : List Var) : digs vars [] = vars.map fun _ => 0 := rfl

theorem num_zero (B : Nat) (vars : List Var) : num B (vars.map fun _ => 0) 0 = 0 := by
  induction vars with
  | nil => rfl
  | cons v vs ih => rw [List.map_cons, num_cons]; simpa using ih

/-- lexicographic comparison of exponents and of digit numbers -/
theorem num_of_lexLt (ho : VarOrd vc) {vars : List Var} (hv : vars.Pairwise fun a b => vc a b = true) {a b : List (Var × Int)}
    (ha : ∀ x ∈ a, 0 < x.2) (hb : ∀ x ∈ b, 0 < x.2) (hsa : ∀ x ∈ a, x.1 ∈ vars) {B acc : Nat}
    (hB : ∀ y ∈ digs vars b, y < B) (h : LexLt vc (E b) (E a)) : num B (digs vars b) acc < num B (digs vars a) acc := by
  obtain ⟨v, h1, h2⟩ := h
  have hvm : v ∈ vars := by
    have : E a v ≠ 0 := by have := E_nonneg hb v; omega
    obtain ⟨x, hx, rfl⟩ := exists_of_E this
    exact hsa x hx
  obtain ⟨pre, suf, rfl⟩ := List.append_of_mem hvm
  have hpre : digs pre b = digs pre a := by
    apply List.map_congr_left
    intro u hu
    have := (List.pairwise_append.1 hv).2.2 u hu v (by simp)
    rw [h2 u this]
  have eb : digs (pre ++ v :: suf) b = digs pre b ++ (E b v).toNat :: digs suf b := by simp [digs]
  have ea : digs (pre ++ v :: suf) a = digs pre a ++ (E a v).toNat :: digs suf a := by simp [digs]
  rw [eb] at hB
  rw [eb, ea, hpre]
  refine num_lex B _ _ _ _ _ acc ?_ (fun d hd => hB d ?_) ?_
  · have := E_nonneg hb v; omega
  · simp [hd]
  · simp [digs]

theorem digs_mul (vars : List Var) {a b : Mono} (ha : Valid vc a) (hb : Valid vc b) :
    digs vars (mul vc a b).data = vars.map fun v => (E a.data v).toNat + (E b.data v).toNat := by
  apply List.map_congr_left
  intro v _
  rw [E_mul]
  have := E_nonneg ha.pos v
  have := E_nonneg hb.pos v
  simp only
  omega

/-! ## grlex -/

theorem FitsGr.one (vars : List Var) : FitsGr vc vars Mono.one :=
  ⟨one_valid, by simp [Mono.one], by show (0:Int) < _; split <;> positivity⟩

section gr
variable (ho : VarOrd vc) {vars : List Var} (hv : vars.Pairwise fun a b => vc a b = true)
include ho hv

theorem packGr_many {m : Mono} (h : FitsGr vc vars m) (hn : 1 < vars.length) :
    packGr vars m = num (2 ^ (64 / (vars.length + 1))) (digs vars m.data) m.deg.toNat := by
  have hcap := h.cap
  rw [if_neg (by omega)] at hcap
  unfold packGr
  have hv0 : vars ≠ [] := by rintro rfl; simp at hn
  by_cases hd : m.data = []
  · have h0 : m.deg = 0 := by rw [h.valid.deg, hd]; rfl
    rw [if_pos (.inl hd), hd, h0, digs_nil]
    exact (num_zero _ _).symm
  · rw [if_neg (by simp [hd, hv0]), if_pos hn]
    set l := 64 / (vars.length + 1) with hl
    have hl1 : l * (vars.length + 1) ≤ 64 := Nat.div_mul_le_self _ _
    have hl64 : l < 64 := by
      have : l * 3 ≤ l * (vars.length + 1) := Nat.mul_le_mul_left _ (by omega)
      omega
    have h0 := deg_nonneg h.valid
    have hW : m.deg < (W : Int) := by
      have : (2:Int) ^ l ≤ 2 ^ 64 := pow_le_pow_right₀ (by norm_num) hl64.le
      rw [W_eq]; push_cast; omega
    rw [toU64_eq h0 hW]
    refine packLoop_eq ho l hl64 vars m.data _ 1 hv h.valid.sorted h.sub ?_ ?_ (by rw [add_comm]; exact hl1)
    · intro x hx
      refine ⟨h.valid.pos x hx, ?_⟩
      have := le_deg h.valid hx
      push_cast; omega
    · rw [mul_one]
      zify
      rw [Int.toNat_of_nonneg h0]; exact hcap

omit ho hv in
theorem packGr_single {m : Mono} (h : FitsGr vc vars m) (hn : vars.length ≤ 1) : packGr vars m = m.deg.toNat := by
  have hcap := h.cap
  rw [if_pos hn] at hcap
  unfold packGr
  have h0 := deg_nonneg h.valid
  by_cases hd : m.data = []
  · have h0 : m.deg = 0 := by rw [h.valid.deg, hd]; rfl
    rw [if_pos (.inl hd), h0]; rfl
  · have hv0 : vars ≠ [] := by
      rintro rfl
      obtain ⟨x, hx⟩ := List.exists_mem_of_ne_nil _ hd
      exact absurd (h.sub x hx) (by simp)
    rw [if_neg (by simp [hd, hv0]), if_neg (by omega), toU64_eq h0 (by rw [W_eq]; push_cast; omega)]

theorem packGr_lt {a b : Mono} (ha : FitsGr vc vars a) (hb : FitsGr vc vars b) (h : grlexGt vc a b = true) :
    packGr vars b < packGr vars a := by
  rw [grlexGt_iff ho ha.valid hb.valid] at h
  have ha0 := deg_nonneg ha.valid
  have hb0 := deg_nonneg hb.valid
  by_cases hn : vars.length ≤ 1
  · rw [packGr_single ha hn, packGr_single hb hn]
    rcases h with h | ⟨h, u, hu, _⟩
    · omega
    · exfalso
      have : E a.data u ≠ 0 := by have := E_nonneg hb.valid.pos u; omega
      obtain ⟨x, hx, rfl⟩ := exists_of_E this
      have hxv := ha.sub x hx
      have hvars : vars = [x.1] := by
        match vars, hn, hxv with
        | [w], _, hxv => simp at hxv; rw [hxv]
      have key : ∀ m, FitsGr vc vars m → m.deg = E m.data x.1 := fun m hm => by
        rw [hm.valid.deg, sum_E_le (V := {x.1}) m.data (fun y hy => by have := hm.sub y hy; rw [hvars] at this; simpa using this)]
        simp
      rw [← key a ha, ← key b hb] at hu
      omega
  · have hn : 1 < vars.length := by omega
    rw [packGr_many ho hv ha hn, packGr_many ho hv hb hn]
    have hcap := hb.cap
    rw [if_neg (by omega)] at hcap
    have hdb : ∀ y ∈ digs vars b.data, y < 2 ^ (64 / (vars.length + 1)) :=
      digs_lt ho hb.valid.sorted hb.valid.pos (by positivity) fun x hx => by
        have := le_deg hb.valid hx
        push_cast; omega
    rcases h with h | ⟨h, hl⟩
    · exact num_acc_lt _ _ _ _ _ (by omega) hdb (by rw [digs_length, digs_length])
    · rw [h]
      exact num_of_lexLt ho hv ha.valid.pos hb.valid.pos ha.sub hdb hl

theorem packGr_round {m : Mono} (h : FitsGr vc vars m) : unpackGr vars (packGr vars m) = m := by
  by_cases hm : m = Mono.one
  · subst hm; simp [packGr, Mono.one, unpackGr]
  have hpos : packGr vars m ≠ 0 := by
    have := packGr_lt ho hv h (FitsGr.one vars)
      (((grlex_ord ho).lawful.total _ _ h.valid one_valid hm).resolve_right (by
        rw [(grlex_ord ho).dom _ _ one_valid h.valid (fun v => E_nonneg h.valid.pos v)]; simp))
    omega
  have hd : m.data ≠ [] := by
    intro hd
    apply hm
    refine h.valid.ext ho one_valid fun v => ?_
    rw [hd]; rfl
  have hv0 : vars ≠ [] := by
    rintro rfl
    obtain ⟨x, hx⟩ := List.exists_mem_of_ne_nil _ hd
    exact absurd (h.sub x hx) (by simp)
  have h0 := deg_nonneg h.valid
  have hcap := h.cap
  unfold unpackGr
  rw [if_neg (by simp [hpos, hv0])]
  by_cases hn : 1 < vars.length
  · rw [if_neg (by omega)] at hcap
    rw [if_pos hn, packGr_many ho hv h hn]
    simp only
    set l := 64 / (vars.length + 1) with hl
    have hl1 : l * (vars.length + 1) ≤ 64 := Nat.div_mul_le_self _ _
    have hl64 : l < 64 := by
      have : l * 3 ≤ l * (vars.length + 1) := Nat.mul_le_mul_left _ (by omega)
      omega
    have hl0 : 0 < l := by
      obtain ⟨x, hx⟩ := List.exists_mem_of_ne_nil _ hd
      have h1 := le_deg h.valid hx
      have h2 := h.valid.pos x hx
      by_contra hc
      have : l = 0 := Nat.eq_zero_of_not_pos hc
      rw [this] at hcap
      omega
    have hdb : ∀ y ∈ digs vars m.data, y < 2 ^ l :=
      digs_lt ho h.valid.sorted h.valid.pos (by positivity) fun x hx => by
        have := le_deg h.valid hx
        push_cast; omega
    have hdg : m.deg.toNat < 2 ^ l := by zify; rw [Int.toNat_of_nonneg h0]; exact hcap
    have hlt : num (2 ^ l) (digs vars m.data) m.deg.toNat < W := by
      have := num_lt (2 ^ l) (m.deg.toNat :: digs vars m.data) (by
        intro y hy
        rcases List.mem_cons.1 hy with rfl | hy
        · exact hdg
        · exact hdb y hy)
      rw [num_cons, zero_mul, zero_add, List.length_cons, digs_length, ← pow_mul] at this
      refine lt_of_lt_of_le this ?_
      rw [W_eq]; exact Nat.pow_le_pow_right (by norm_num) hl1
    have hdata := unpackLoopGr_eq l (vars.length + 1) hl0 hl64 hl1 (by omega) vars [] (digs vars m.data) 0 m.deg.toNat
      (by rw [digs_length]) (by rw [digs_length]; simp; omega) hdb
    rw [List.nil_append, List.length_nil, mul_zero, pow_zero, mul_one, num_cons, zero_mul, zero_add, Nat.mod_eq_of_lt hlt,
      Nat.add_sub_cancel] at hdata
    rw [hdata, rebuild_digs ho hv h.valid.sorted h.valid.pos h.sub]
    have e0 : l * (vars.length + 1) = l + l * vars.length := by ring
    have hfield : fieldAt (subW (shl64 1 (l * (vars.length + 1))) (shl64 1 (l * vars.length))) (l * vars.length)
        (num (2 ^ l) (digs vars m.data) m.deg.toNat) = m.deg.toNat := by
      rw [e0, fieldAt_eq l _ _ hl0 (by rw [← e0]; exact hl1) (Nat.mul_pos hl0 (by omega)) hlt, pow_mul]
      have := num_top (2 ^ l) (digs vars m.data) m.deg.toNat hdb
      rw [digs_length] at this
      rw [this, Nat.mod_eq_of_lt hdg]
    rw [hfield, toI64_eq (lt_of_lt_of_le hdg (Nat.pow_le_pow_right (by norm_num) (by omega)))]
    have : ((m.deg.toNat : Nat) : Int) = m.deg := Int.toNat_of_nonneg h0
    rw [this]
  · rw [if_neg hn, packGr_single h (by omega)]
    rw [if_pos (by omega)] at hcap
    have hvars : ∃ w, vars = [w] := by
      match vars, hv0, hn with
      | [w], _, _ => exact ⟨w, rfl⟩
      | _ :: _ :: _, _, hn => simp at hn
    obtain ⟨w, rfl⟩ := hvars
    rw [toI64_eq (by omega), Int.toNat_of_nonneg h0]
    have hdeg : m.deg = E m.data w := by
      rw [h.valid.deg, sum_E_le (V := {w}) m.data (fun y hy => by have := h.sub y hy; simpa using this)]
      simp
    have hpos' : 0 < m.deg := by
      obtain ⟨x, hx⟩ := List.exists_mem_of_ne_nil _ hd
      have h1 := le_deg h.valid hx
      have h2 := h.valid.pos x hx
      omega
    have hV : Valid vc (⟨[(w, m.deg)], m.deg⟩ : Mono) :=
      ⟨List.pairwise_singleton _ _, by simpa using hpos', by simp⟩
    refine hV.ext ho h.valid fun v => ?_
    show E [(w, m.deg)] v = _
    rw [E_cons, E_nil, add_zero]
    split
    · rename_i e; simp only at e; rw [← e, ← hdeg]
    · rename_i e
      rw [E_not_mem]
      intro y hy e'
      have := h.sub y hy
      simp only [List.mem_singleton] at this
      exact e (by rw [← this, e'])

theorem packGr_add {a b : Mono} (ha : FitsGr vc vars a) (hb : FitsGr vc vars b) (hab : FitsGr vc vars (mul vc a b)) :
    addW (packGr vars a) (packGr vars b) = packGr vars (mul vc a b) := by
  have ha0 := deg_nonneg ha.valid
  have hb0 := deg_nonneg hb.valid
  have hdeg : (mul vc a b).deg = a.deg + b.deg := rfl
  have hcap := hab.cap
  by_cases hn : vars.length ≤ 1
  · rw [if_pos hn] at hcap
    rw [packGr_single ha hn, packGr_single hb hn, packGr_single hab hn, hdeg, addW_of_lt]
    · omega
    · rw [W_eq]; omega
  · have hn : 1 < vars.length := by omega
    rw [packGr_many ho hv ha hn, packGr_many ho hv hb hn, packGr_many ho hv hab hn]
    rw [if_neg (by omega)] at hcap
    have hsum := num_add (2 ^ (64 / (vars.length + 1))) vars (fun v => (E a.data v).toNat) (fun v => (E b.data v).toNat)
      a.deg.toNat b.deg.toNat
    rw [← digs_mul vars ha.valid hb.valid] at hsum
    have hd : a.deg.toNat + b.deg.toNat = (mul vc a b).deg.toNat := by rw [hdeg]; omega
    rw [hd] at hsum
    have hlt : num (2 ^ (64 / (vars.length + 1))) (digs vars (mul vc a b).data) (mul vc a b).deg.toNat < W := by
      have hdb : ∀ y ∈ digs vars (mul vc a b).data, y < 2 ^ (64 / (vars.length + 1)) :=
        digs_lt ho hab.valid.sorted hab.valid.pos (by positivity) fun x hx => by
          have := le_deg hab.valid hx
          push_cast; omega
      have := num_lt (2 ^ (64 / (vars.length + 1))) ((mul vc a b).deg.toNat :: digs vars (mul vc a b).data) (by
        intro y hy
        rcases List.mem_cons.1 hy with rfl | hy
        · zify; rw [Int.toNat_of_nonneg (deg_nonneg hab.valid)]; exact hcap
        · exact hdb y hy)
      rw [num_cons, zero_mul, zero_add, List.length_cons, digs_length, ← pow_mul] at this
      refine lt_of_lt_of_le this ?_
      rw [W_eq]; exact Nat.pow_le_pow_right (by norm_num) (Nat.div_mul_le_self _ _)
    rw [← hsum] at hlt ⊢
    exact addW_of_lt hlt

theorem codecGr : Codec vc (grlexGt vc) (packGr vars) (unpackGr vars) (FitsGr vc vars) where
  valid _ h := h.valid
  round _ h := packGr_round ho hv h
  lt _ _ ha hb := packGr_lt ho hv ha hb
  add _ _ ha hb hab := packGr_add ho hv ha hb hab

end gr

/-! ## lex -/

theorem FitsLex.one (vars : List Var) : FitsLex vc vars Mono.one := ⟨one_valid, by simp [Mono.one], by simp [Mono.one]⟩

section lex
variable (ho : VarOrd vc) {vars : List Var} (hv : vars.Pairwise fun a b => vc a b = true)
include ho

/-- the field capacity, uniformly -/
theorem FitsLex.cap' {m : Mono} (h : FitsLex vc vars m) : ∀ y ∈ digs vars m.data,
    y < if vars.length ≤ 1 then 2 ^ 63 else 2 ^ (64 / vars.length) := by
  have hcap := h.cap
  split at hcap <;> rename_i hc
  · rw [if_pos hc]
    exact digs_lt ho h.valid.sorted h.valid.pos (by positivity) (by exact_mod_cast hcap)
  · rw [if_neg hc]
    exact digs_lt ho h.valid.sorted h.valid.pos (by positivity) (by exact_mod_cast hcap)

theorem single_data {m : Mono} (h : Valid vc m) {w : Var} (hsub : ∀ x ∈ m.data, x.1 ∈ [w]) (hd : m.data ≠ []) :
    m.data = [(w, E m.data w)] := by
  match hm : m.data, hd with
  | [x], _ =>
    have := hsub x (by rw [hm]; simp)
    simp only [List.mem_singleton] at this
    subst this
    simp [E]
  | x :: y :: t, _ =>
    have hs := h.sorted
    rw [hm] at hs
    have h1 := (List.pairwise_cons.1 hs).1 y (by simp)
    have hx := hsub x (by rw [hm]; simp)
    have hy := hsub y (by rw [hm]; simp)
    simp only [List.mem_singleton] at hx hy
    rw [hx, hy, ho.irrefl _ trivial] at h1
    exact absurd h1 (by simp)

theorem packLex_single {m : Mono} {w : Var} (h : FitsLex vc [w] m) : packLex [w] m = (E m.data w).toNat := by
  unfold packLex
  by_cases hd : m.data = []
  · rw [if_pos (.inl hd), hd]; rfl
  · rw [if_neg (by simp [hd])]
    have hd2 := single_data ho h.valid h.sub hd
    have h1 : 0 < E m.data w := by
      have := h.valid.pos (w, E m.data w) (by rw [hd2]; simp [E])
      exact this
    have h2 : E m.data w < 2 ^ 63 := by
      have := h.cap (w, E m.data w) (by rw [hd2]; simp [E])
      simpa using this
    generalize E m.data w = e at hd2 h1 h2
    rw [hd2]
    show packLoop (64 / 1) [w] [(w, e)] 0 = _
    rw [packLoop, if_pos rfl]
    have : shl64 0 (64 / 1) = 0 := by decide
    rw [this, packLoop, toU64_eq h1.le (by rw [W_eq]; push_cast; omega), addW_of_lt (by rw [W_eq]; omega)]
    omega

include hv

theorem packLex_many {m : Mono} (h : FitsLex vc vars m) (hn : 1 < vars.length) :
    packLex vars m = num (2 ^ (64 / vars.length)) (digs vars m.data) 0 := by
  have hcap := h.cap
  rw [if_neg (by omega)] at hcap
  unfold packLex
  have hv0 : vars ≠ [] := by rintro rfl; simp at hn
  by_cases hd : m.data = []
  · rw [if_pos (.inl hd), hd, digs_nil]
    exact (num_zero _ _).symm
  · rw [if_neg (by simp [hd, hv0])]
    set l := 64 / vars.length with hl
    have hl1 : l * vars.length ≤ 64 := Nat.div_mul_le_self _ _
    have hl64 : l < 64 := by
      have : l * 2 ≤ l * vars.length := Nat.mul_le_mul_left _ (by omega)
      omega
    refine packLoop_eq ho l hl64 vars m.data 0 0 hv h.valid.sorted h.sub ?_ (by positivity) (by rw [zero_add]; exact hl1)
    intro x hx
    refine ⟨h.valid.pos x hx, ?_⟩
    have := hcap x hx
    push_cast; exact this

theorem packLex_lt {a b : Mono} (ha : FitsLex vc vars a) (hb : FitsLex vc vars b) (h : lexGt vc a b = true) :
    packLex vars b < packLex vars a := by
  rw [lexGt, pvComp_iff ho ha.valid.sorted hb.valid.sorted ha.valid.pos hb.valid.pos] at h
  by_cases hn : 1 < vars.length
  · rw [packLex_many ho hv ha hn, packLex_many ho hv hb hn]
    have hdb := hb.cap' ho
    rw [if_neg (by omega)] at hdb
    exact num_of_lexLt ho hv ha.valid.pos hb.valid.pos ha.sub hdb h
  · obtain ⟨u, hu, _⟩ := h
    have hb0 := E_nonneg hb.valid.pos u
    have : E a.data u ≠ 0 := by omega
    obtain ⟨x, hx, rfl⟩ := exists_of_E this
    have hxv := ha.sub x hx
    have hvars : vars = [x.1] := by
      match vars, hn, hxv with
      | [w], _, hxv => simp at hxv; rw [hxv]
      | _ :: _ :: _, hn, _ => simp at hn
    subst hvars
    rw [packLex_single ho ha, packLex_single ho hb]
    omega

theorem packLex_round {m : Mono} (h : FitsLex vc vars m) : unpackLex vars (packLex vars m) = m := by
  by_cases hm : m = Mono.one
  · subst hm; simp [packLex, Mono.one, unpackLex]
  have hpos : packLex vars m ≠ 0 := by
    have := packLex_lt ho hv h (FitsLex.one vars)
      (((lex_ord ho).lawful.total _ _ h.valid one_valid hm).resolve_right (by
        rw [(lex_ord ho).dom _ _ one_valid h.valid (fun v => E_nonneg h.valid.pos v)]; simp))
    omega
  have hd : m.data ≠ [] := by
    intro hd
    apply hm
    refine h.valid.ext ho one_valid fun v => ?_
    rw [hd]; rfl
  have hv0 : vars ≠ [] := by
    rintro rfl
    obtain ⟨x, hx⟩ := List.exists_mem_of_ne_nil _ hd
    exact absurd (h.sub x hx) (by simp)
  have hcap := h.cap' ho
  unfold unpackLex
  rw [if_neg (by simp [hpos, hv0])]
  have key : ∀ d, d = m.data → (⟨d, sumDeg d⟩ : Mono) = m := by
    rintro d rfl
    have := h.valid.deg
    unfold sumDeg
    rw [← this]
  by_cases hn : 1 < vars.length
  · rw [if_neg (by omega)] at hcap
    rw [packLex_many ho hv h hn]
    simp only
    set l := 64 / vars.length with hl
    have hl1 : l * vars.length ≤ 64 := Nat.div_mul_le_self _ _
    have hl64 : l < 64 := by
      have : l * 2 ≤ l * vars.length := Nat.mul_le_mul_left _ (by omega)
      omega
    have hl0 : 0 < l := by
      obtain ⟨x, hx⟩ := List.exists_mem_of_ne_nil _ hd
      have h2 := h.valid.pos x hx
      have h3 := h.cap x hx
      rw [if_neg (by omega), ← hl] at h3
      by_contra hc
      have : l = 0 := Nat.eq_zero_of_not_pos hc
      rw [this] at h3
      omega
    have hlt : num (2 ^ l) (digs vars m.data) 0 < W := by
      have := num_lt (2 ^ l) (digs vars m.data) hcap
      rw [digs_length, ← pow_mul] at this
      refine lt_of_lt_of_le this ?_
      rw [W_eq]; exact Nat.pow_le_pow_right (by norm_num) hl1
    have hdata := unpackLoopLex_eq l vars.length hl0 hl64 hl1 (by omega) vars [] (digs vars m.data) 0
      (by rw [digs_length]) (by rw [digs_length]; simp) hcap (by omega)
    rw [List.nil_append, List.length_nil, mul_zero, pow_zero, mul_one, Nat.mod_eq_of_lt hlt] at hdata
    rw [if_neg (by omega), hdata]
    exact key _ (rebuild_digs ho hv h.valid.sorted h.valid.pos h.sub)
  · have hvars : ∃ w, vars = [w] := by
      match vars, hv0, hn with
      | [w], _, _ => exact ⟨w, rfl⟩
      | _ :: _ :: _, _, hn => simp at hn
    obtain ⟨w, rfl⟩ := hvars
    rw [packLex_single ho h] at hpos ⊢
    have h1 : (E m.data w).toNat < 2 ^ 63 := by
      have := hcap (E m.data w).toNat (by simp [digs])
      simpa using this
    apply key
    rw [unpackLoopLex]
    have hf : fieldAt (if 64 / [w].length = 64 then W - 1 else subW (shl64 1 (64 / [w].length * [w].length))
        (shl64 1 (64 / [w].length * ([w].length - 1)))) (64 / [w].length * ([w].length - 1)) (E m.data w).toNat = (E m.data w).toNat := by
      rw [if_pos (by simp)]
      show ((E m.data w).toNat &&& (W - 1)) >>> 0 = _
      rw [W_eq, Nat.shiftRight_zero, Nat.and_two_pow_sub_one_eq_mod, Nat.mod_eq_of_lt (by omega)]
    rw [hf, if_pos hpos, toI64_eq h1]
    have h2 := E_nonneg h.valid.pos w
    rw [Int.toNat_of_nonneg h2]
    exact (single_data ho h.valid h.sub hd).symm

theorem packLex_add {a b : Mono} (ha : FitsLex vc vars a) (hb : FitsLex vc vars b) (hab : FitsLex vc vars (mul vc a b)) :
    addW (packLex vars a) (packLex vars b) = packLex vars (mul vc a b) := by
  have hcap := hab.cap' ho
  by_cases hn : 1 < vars.length
  · rw [packLex_many ho hv ha hn, packLex_many ho hv hb hn, packLex_many ho hv hab hn]
    rw [if_neg (by omega)] at hcap
    have hsum := num_add (2 ^ (64 / vars.length)) vars (fun v => (E a.data v).toNat) (fun v => (E b.data v).toNat) 0 0
    rw [← digs_mul vars ha.valid hb.valid, add_zero] at hsum
    have hlt : num (2 ^ (64 / vars.length)) (digs vars (mul vc a b).data) 0 < W := by
      have := num_lt (2 ^ (64 / vars.length)) (digs vars (mul vc a b).data) hcap
      rw [digs_length, ← pow_mul] at this
      refine lt_of_lt_of_le this ?_
      rw [W_eq]; exact Nat.pow_le_pow_right (by norm_num) (Nat.div_mul_le_self _ _)
    rw [← hsum] at hlt ⊢
    exact addW_of_lt hlt
  · match vars, hn, ha, hb, hab, hcap with
    | [], _, ha, hb, hab, _ => simp [packLex, addW]
    | _ :: _ :: _, hn, _, _, _, _ => simp at hn
    | [w], _, ha, hb, hab, hcap =>
      rw [packLex_single ho ha, packLex_single ho hb, packLex_single ho hab]
      have h1 := hcap (E (mul vc a b).data w).toNat (by simp [digs])
      rw [if_pos (by simp)] at h1
      rw [E_mul] at h1 ⊢
      have := E_nonneg ha.valid.pos w
      have := E_nonneg hb.valid.pos w
      simp only at h1 ⊢
      rw [addW_of_lt]
      · omega
      · rw [W_eq]; omega

theorem codecLex : Codec vc (lexGt vc) (packLex vars) (unpackLex vars) (FitsLex vc vars) where
  valid _ h := h.valid
  round _ h := packLex_round ho hv h
  lt _ _ ha hb := packLex_lt ho hv ha hb
  add _ _ ha hb hab := packLex_add ho hv ha hb hab

end lex
end CLPoly
