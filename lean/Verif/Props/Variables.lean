import Verif.Var.Registry
import Mathlib.Tactic.ByContra
import Mathlib.Tactic.Tauto

/-!
# C11: the variable registry over every history of calls

The specification knows nothing of vectors, hash maps or free lists: it is the partial map `Live` from
serials to the names of the variables that exist now.
-/

namespace CLPoly.Var

/-- Specification state: which serials are live, under which name. -/
abbrev Live := Nat → Option String

/-- At start only the anonymous variable 0 exists. -/
def Live.init : Live := fun s => if s = 0 then some "" else none

def Live.set (L : Live) (s : Nat) (o : Option String) : Live := fun t => if t = s then o else L t

/-- Names handed out by `new_variable()`. -/
def Reserved (n : String) : Prop := ∃ k : Nat, n = "#var_" ++ toString k

/-- Creating a variable called `n`: it receives a serial no live variable has. -/
def Creates (L : Live) (n : String) (s : Nat) (L' : Live) : Prop :=
  n ≠ "" ∧ (∀ t, L t ≠ some n) ∧ L s = none ∧ L' = L.set s (some n)

/-- What each call is supposed to do, in terms of live variables only. -/
def SpecStep (L : Live) : Op → Res → Live → Prop
  | .get n, x, L' => ∃ s, x = .var s ∧ ((L s = some n ∧ L' = L) ∨ Creates L n s L')
  | .newNamed n, x, L' => ∃ s, x = .var s ∧ Creates L n s L'
  | .newAuto, x, L' => ∃ s n, x = .var s ∧ Reserved n ∧ Creates L n s L'
  | .getSerial s, x, L' => x = .var s ∧ (∃ n, n ≠ "" ∧ L s = some n) ∧ L' = L
  | .name s, x, L' => L' = L ∧ ∀ n, L s = some n → x = .str n
  | .delSerial s, x, L' => x = .done ∧ L' = if s = 0 then L else L.set s none
  | .delName n, x, L' => x = .done ∧ L' = fun t => if n ≠ "" ∧ L t = some n then none else L t

/-- A history conforms when each call does what it is supposed to. -/
def SpecRun : Live → List Op → List Res → Live → Prop
  | L, [], xs, L' => xs = [] ∧ L' = L
  | L, o :: os, xs, L' => ∃ x xs' L1, xs = x :: xs' ∧ SpecStep L o x L1 ∧ SpecRun L1 os xs' L'

/-- The names supplied by the caller for variables to be created are not of the form handed out by
`new_variable()`. -/
def UserNames (os : List Op) : Prop :=
  ∀ n, (Op.get n ∈ os ∨ Op.newNamed n ∈ os) → ¬ Reserved n

/-- What is observable of a registry as live variables: serial 0, and every serial with a nonempty
name. -/
def Reg.live (r : Reg) : Live := fun s =>
  if s = 0 then some "" else match r.variables[s]? with
    | none => none
    | some n => if n = "" then none else some n

theorem toString_inj {a b : Nat} (h : autoName a = autoName b) : a = b := by
  unfold autoName at h
  have h2 := congrArg String.toList h
  rw [String.toList_append, String.toList_append, List.append_cancel_left_eq] at h2
  have h3 := congrArg (fun l => Nat.ofDigitChars 10 l 0) h2
  simpa using h3

/-- Registry invariant. -/
structure Inv (r : Reg) : Prop where
  zero : r.variables[0]? = some ""
  map : ∀ n s, r.nameMap n = some s ↔ r.live s = some n
  free : ∀ s ∈ r.free, s ≠ 0 ∧ r.variables[s]? = some ""
  nodup : r.free.Nodup
  auto : ∀ s k, r.live s = some (autoName k) → k = s

theorem live_eq (r : Reg) {s : Nat} (h : s ≠ 0) (n : String) :
    r.live s = some n ↔ n ≠ "" ∧ r.variables[s]? = some n := by
  unfold Reg.live
  rw [if_neg h]
  rcases hv : r.variables[s]? with _ | m
  · simp
  · by_cases hm : m = ""
    · simp [hm]; try (rintro h rfl; exact h rfl)
    · simp only [hm, if_false, Option.some.injEq]
      constructor
      · rintro rfl; exact ⟨hm, rfl⟩
      · exact fun h => h.2

theorem live_none (r : Reg) {s : Nat} (h : s ≠ 0) :
    r.live s = none ↔ r.variables[s]? = none ∨ r.variables[s]? = some "" := by
  unfold Reg.live
  rw [if_neg h]
  rcases hv : r.variables[s]? with _ | m
  · simp
  · by_cases hm : m = "" <;> simp [hm]

theorem live_zero (r : Reg) : r.live 0 = some "" := rfl

theorem inv_init : Inv Reg.init where
  zero := rfl
  map n s := by
    by_cases hs : s = 0
    · subst hs; rw [live_zero]; simp [Reg.init, eq_comm]
    · rw [live_eq _ hs]
      rcases s with _ | s
      · exact absurd rfl hs
      · simp [Reg.init]
  free := by simp [Reg.init]
  nodup := by simp [Reg.init]
  auto s k h := by
    by_cases hs : s = 0
    · subst hs; rw [live_zero] at h
      simp [autoName] at h
    · rw [live_eq _ hs] at h
      rcases s with _ | s
      · exact absurd rfl hs
      · simp [Reg.init] at h

theorem live_init : Reg.init.live = Live.init := by
  funext s
  rcases s with _ | s <;> simp [Reg.live, Live.init, Reg.init]

/-- Creating a variable keeps the invariant and does exactly what the specification says. -/
theorem initNamed_spec {r : Reg} (h : Inv r) {n : String} (hn : n ≠ "") (hf : ∀ t, r.live t ≠ some n)
    (ha : ∀ k, n = autoName k → k = (r.initNamed n).2) :
    Inv (r.initNamed n).1 ∧ Creates r.live n (r.initNamed n).2 (r.initNamed n).1.live := by
  have key : ∃ s, (r.initNamed n).2 = s ∧ s ≠ 0 ∧ r.live s = none ∧
      (∀ t, (r.initNamed n).1.variables[t]? = if t = s then some n else r.variables[t]?) ∧
      (r.initNamed n).1.nameMap = mapSet r.nameMap n s ∧ (r.initNamed n).1.free = r.free.tail ∧ s ∉ r.free.tail := by
    have hpos : 0 < r.variables.length := by
      by_contra hc
      have h0 := h.zero
      rw [List.getElem?_eq_none (by omega)] at h0; cases h0
    unfold Reg.initNamed
    rcases hfr : r.free with _ | ⟨s, fs⟩
    · refine ⟨_, rfl, by simp; intro hc; rw [hc] at hpos; simp at hpos, ?_, ?_, rfl, rfl, by simp⟩
      · rw [live_none _ (Nat.pos_iff_ne_zero.1 hpos)]; left; simp
      · intro t
        simp only [List.getElem?_append]
        by_cases ht : t < r.variables.length
        · simp [ht, show t ≠ r.variables.length by omega]
        · by_cases ht2 : t = r.variables.length
          · subst ht2; simp
          · rw [if_neg ht, if_neg ht2, List.getElem?_eq_none (by simp; omega), List.getElem?_eq_none (by omega)]
    · have hs := h.free s (by rw [hfr]; simp)
      refine ⟨s, rfl, hs.1, (live_none _ hs.1).2 (.inr hs.2), ?_, rfl, rfl, ?_⟩
      · intro t
        simp only [List.getElem?_set]
        by_cases ht : s = t
        · subst ht
          have : s < r.variables.length := (List.getElem?_eq_some_iff.1 hs.2).1
          simp [this]
        · simp [ht, Ne.symm ht]
      · have := h.nodup; rw [hfr] at this
        exact (List.nodup_cons.1 this).1
  obtain ⟨s, e1, s0, hl, hv, hm, hfree, hnf⟩ := key
  have hlive : (r.initNamed n).1.live = r.live.set s (some n) := by
    funext t
    unfold Reg.live Live.set
    rw [hv]
    by_cases ht : t = 0
    · subst ht; simp [Ne.symm s0]
    · by_cases hts : t = s
      · subst hts; simp [s0, hn]
      · simp [ht, hts]
  refine ⟨⟨?_, ?_, ?_, ?_, ?_⟩, hn, hf, e1 ▸ hl, e1 ▸ hlive⟩
  · rw [hv]; simp [Ne.symm s0, h.zero]
  · intro k t
    rw [hm, hlive]
    unfold mapSet Live.set
    by_cases hk : k = n
    · subst hk
      simp only [if_true, Option.some.injEq]
      by_cases ht : t = s
      · simp [ht]
      · simp only [ht, if_false]
        constructor
        · intro hc; exact absurd hc.symm ht
        · intro hc; exact absurd hc (hf t)
    · simp only [hk, if_false]
      rw [h.map]
      by_cases ht : t = s
      · subst ht; simp [hl, Ne.symm hk]
      · simp [ht]
  · intro t ht
    rw [hfree] at ht
    have := h.free t (List.mem_of_mem_tail ht)
    refine ⟨this.1, ?_⟩
    rw [hv, if_neg (by rintro rfl; exact hnf ht)]
    exact this.2
  · rw [hfree]; exact h.nodup.sublist (List.tail_sublist _)
  · intro t k hk
    rw [hlive] at hk
    unfold Live.set at hk
    by_cases ht : t = s
    · subst ht
      simp only [if_true, Option.some.injEq] at hk
      rw [ha k hk, e1]
    · rw [if_neg ht] at hk
      exact h.auto t k hk

theorem initAuto_eq (r : Reg) : r.initAuto = r.initNamed (autoName r.initAuto.2) := by
  unfold Reg.initAuto Reg.initNamed
  rcases r.free with _ | ⟨s, fs⟩ <;> rfl

theorem autoName_ne (k : Nat) : autoName k ≠ "" := by
  intro h
  have := congrArg String.toList h
  simp [autoName] at this

theorem initAuto_spec {r : Reg} (h : Inv r) :
    Inv r.initAuto.1 ∧ Creates r.live (autoName r.initAuto.2) r.initAuto.2 r.initAuto.1.live := by
  obtain ⟨k, hk⟩ : ∃ k, k = r.initAuto.2 := ⟨_, rfl⟩
  have e := initAuto_eq r
  have hl : r.live k = none := by
    have hpos : 0 < r.variables.length := by
      by_contra hc
      have h0 := h.zero
      rw [List.getElem?_eq_none (by omega)] at h0; cases h0
    subst hk
    unfold Reg.initAuto
    rcases hfr : r.free with _ | ⟨s, fs⟩
    · show r.live r.variables.length = none
      rw [live_none _ (by omega)]; left; simp
    · have hs := h.free s (by rw [hfr]; simp)
      exact (live_none _ hs.1).2 (.inr hs.2)
  rw [← hk] at e ⊢
  have h2 : (r.initNamed (autoName k)).2 = k := by rw [← e, hk]
  have := initNamed_spec h (autoName_ne k) (fun t ht => by
    have := h.auto t k ht
    subst this; rw [hl] at ht; cases ht) (fun j hj => by rw [h2]; exact (toString_inj hj).symm)
  rw [h2, ← e] at this
  exact this

theorem delSerial_spec {r : Reg} (h : Inv r) (s : Nat) :
    Inv (r.delSerial s) ∧ (r.delSerial s).live = if s = 0 then r.live else r.live.set s none := by
  unfold Reg.delSerial
  rcases hv : r.variables[s]? with _ | n
  · refine ⟨h, ?_⟩
    by_cases hs : s = 0
    · simp [hs]
    · rw [if_neg hs]
      funext t; unfold Live.set
      by_cases ht : t = s
      · subst ht; simp [(live_none r hs).2 (.inl hv)]
      · simp [ht]
  · by_cases hn : n = ""
    · simp only [hn, if_true]
      refine ⟨h, ?_⟩
      by_cases hs : s = 0
      · simp [hs]
      · rw [if_neg hs]
        funext t; unfold Live.set
        by_cases ht : t = s
        · subst ht; simp [(live_none r hs).2 (.inr (hn ▸ hv))]
        · simp [ht]
    · simp only [hn, if_false]
      have hs : s ≠ 0 := by
        rintro rfl; rw [h.zero] at hv; injection hv with hv; exact hn hv.symm
      have hlt : s < r.variables.length := (List.getElem?_eq_some_iff.1 hv).1
      have hvar : ∀ t, (r.variables.set s "")[t]? = if t = s then some "" else r.variables[t]? := by
        intro t
        simp only [List.getElem?_set]
        by_cases ht : s = t
        · subst ht; simp [hlt]
        · simp [ht, Ne.symm ht]
      have hls : r.live s = some n := (live_eq r hs n).2 ⟨hn, hv⟩
      have hlive : (⟨r.variables.set s "", mapErase r.nameMap n, s :: r.free⟩ : Reg).live = r.live.set s none := by
        funext t
        unfold Reg.live Live.set
        simp only [hvar]
        by_cases ht : t = 0
        · subst ht; simp [Ne.symm hs]
        · by_cases hts : t = s
          · subst hts; simp [hs]
          · simp [ht, hts]
      refine ⟨⟨?_, ?_, ?_, ?_, ?_⟩, ?_⟩
      · show (r.variables.set s "")[0]? = _
        rw [hvar]; simp [Ne.symm hs, h.zero]
      · intro k t
        rw [hlive]
        show mapErase r.nameMap n k = _ ↔ _
        unfold mapErase Live.set
        by_cases hk : k = n
        · subst hk
          simp only [if_true]
          by_cases ht : t = s
          · simp [ht]
          · simp only [ht, if_false]
            constructor
            · intro hc; cases hc
            · intro hc
              have a := (h.map k t).2 hc
              have b := (h.map k s).2 hls
              rw [a] at b; injection b with b; exact absurd b ht
        · simp only [hk, if_false]
          rw [h.map]
          by_cases ht : t = s
          · subst ht; simp [hls, Ne.symm hk]
          · simp [ht]
      · intro t ht
        show t ≠ 0 ∧ (r.variables.set s "")[t]? = _
        rw [hvar]
        rcases List.mem_cons.1 ht with rfl | ht
        · simp [hs]
        · have := h.free t ht
          by_cases hts : t = s
          · subst hts; simp [hs]
          · simp [hts, this]
      · show (s :: r.free).Nodup
        refine List.nodup_cons.2 ⟨fun hc => ?_, h.nodup⟩
        rw [(h.free s hc).2] at hv; injection hv with hv; exact hn hv.symm
      · intro t k hk
        rw [hlive] at hk
        unfold Live.set at hk
        by_cases ht : t = s
        · simp [ht] at hk
        · rw [if_neg ht] at hk; exact h.auto t k hk
      · rw [if_neg hs]; exact hlive

theorem delName_spec {r : Reg} (h : Inv r) (n : String) :
    Inv (r.delName n) ∧ (r.delName n).live = fun t => if n ≠ "" ∧ r.live t = some n then none else r.live t := by
  unfold Reg.delName
  rcases hm : r.nameMap n with _ | s
  · refine ⟨h, ?_⟩
    funext t
    rw [if_neg]
    rintro ⟨-, hc⟩
    rw [(h.map n t).2 hc] at hm; cases hm
  · obtain ⟨h1, h2⟩ := delSerial_spec h s
    refine ⟨h1, ?_⟩
    show (r.delSerial s).live = _
    rw [h2]
    have hl := (h.map n s).1 hm
    by_cases hs : s = 0
    · subst hs
      rw [live_zero] at hl; injection hl with hl; subst hl
      simp
    · have hn := ((live_eq r hs n).1 hl).1
      rw [if_neg hs]
      funext t
      unfold Live.set
      by_cases ht : t = s
      · subst ht; simp [hn, hl]
      · rw [if_neg ht, if_neg]
        rintro ⟨-, hc⟩
        rw [(h.map n t).2 hc] at hm; injection hm with hm; exact ht hm

/-- One call of the debug build on a registry satisfying the invariant. -/
theorem step_spec {r r' : Reg} {o : Op} {x : Res} (h : Inv r) (hu : UserNames [o])
    (hs : step true r o = some (r', x)) : Inv r' ∧ SpecStep r.live o x r'.live := by
  cases o with
  | get n =>
    have hr : ¬ Reserved n := hu n (.inl (by simp))
    simp only [step] at hs
    rcases hm : r.nameMap n with _ | s
    · simp only [hm, Bool.true_and] at hs
      by_cases hn : n = ""
      · subst hn
        have := (h.map "" 0).2 (live_zero r)
        rw [hm] at this; cases this
      · simp [isUserDefName, hn] at hs
        obtain ⟨rfl, rfl⟩ := hs
        have := initNamed_spec h hn (fun t ht => by rw [(h.map n t).2 ht] at hm; cases hm)
          (fun k hk => absurd ⟨k, hk⟩ hr)
        exact ⟨this.1, _, rfl, .inr this.2⟩
    · simp only [hm] at hs
      injection hs with hs; injection hs with h1 h2
      subst h1; subst h2
      exact ⟨h, s, rfl, .inl ⟨(h.map n s).1 hm, rfl⟩⟩
  | newNamed n =>
    have hr : ¬ Reserved n := hu n (.inr (by simp))
    simp only [step] at hs
    split at hs
    · cases hs
    · rename_i hc
      injection hs with hs; injection hs with h1 h2
      subst h1; subst h2
      simp [isUserDefName] at hc
      have := initNamed_spec h hc.2 (fun t ht => by rw [(h.map n t).2 ht] at hc; cases hc.1)
          (fun k hk => absurd ⟨k, hk⟩ hr)
      exact ⟨this.1, _, rfl, this.2⟩
  | newAuto =>
    simp only [step] at hs
    injection hs with hs; injection hs with h1 h2
    subst h1; subst h2
    have := initAuto_spec h
    exact ⟨this.1, _, _, rfl, ⟨_, rfl⟩, this.2⟩
  | getSerial s =>
    simp only [step] at hs
    split at hs
    · cases hs
    · rename_i hc
      injection hs with hs; injection hs with h1 h2
      subst h1; subst h2
      simp at hc
      refine ⟨h, rfl, ?_, rfl⟩
      rcases hv : r.variables[s]? with _ | n
      · have := List.getElem?_eq_none_iff.1 hv; omega
      · have hn : n ≠ "" := by rintro rfl; exact hc.2 hv
        have hs0 : s ≠ 0 := by rintro rfl; exact hc.2 h.zero
        exact ⟨n, hn, (live_eq r hs0 n).2 ⟨hn, hv⟩⟩
  | name s =>
    simp only [step, Option.map_eq_some_iff] at hs
    obtain ⟨m, hm, hs⟩ := hs
    injection hs with h1 h2
    subst h1; subst h2
    refine ⟨h, rfl, fun n hn => ?_⟩
    by_cases hs0 : s = 0
    · subst hs0; rw [live_zero] at hn; rw [h.zero] at hm
      injection hm with hm; injection hn with hn; rw [← hm, ← hn]
    · rw [live_eq r hs0, hm] at hn
      injection hn.2 with hn; rw [hn]
  | delSerial s =>
    simp only [step] at hs
    injection hs with hs; injection hs with h1 h2
    subst h1; subst h2
    have := delSerial_spec h s
    exact ⟨this.1, rfl, this.2⟩
  | delName n =>
    simp only [step] at hs
    injection hs with hs; injection hs with h1 h2
    subst h1; subst h2
    have := delName_spec h n
    exact ⟨this.1, rfl, this.2⟩

theorem run_spec : ∀ (os : List Op) {r r' : Reg} {xs : List Res}, Inv r → UserNames os →
    run true r os = some (r', xs) → Inv r' ∧ SpecRun r.live os xs r'.live
  | [], r, r', xs, h, _, hs => by
    simp only [run] at hs
    injection hs with hs; injection hs with h1 h2
    subst h1; subst h2
    exact ⟨h, rfl, rfl⟩
  | o :: os, r, r', xs, h, hu, hs => by
    simp only [run] at hs
    rcases he : step true r o with _ | ⟨r1, x⟩
    · rw [he] at hs; cases hs
    · rw [he] at hs
      simp only [Option.map_eq_some_iff] at hs
      obtain ⟨⟨r2, ys⟩, hs, e⟩ := hs
      injection e with e1 e2
      subst e1; subst e2
      obtain ⟨a, b⟩ := step_spec h (fun n hn => hu n (by simp at hn ⊢; tauto)) he
      obtain ⟨c, d⟩ := run_spec os a (fun n hn => hu n (by simp; tauto)) hs
      exact ⟨c, x, ys, r1.live, rfl, b, d⟩

/-! ## C11 -/

/-- Every history of calls (debug build, caller's names not of the reserved form) behaves as the
abstract map of live variables prescribes: lookups return the serial of the live variable of that name
or create one under an unused serial and an unused name, names are reported as created, deletions
remove exactly the named variable. -/
theorem C11_histories_partial (os : List Op) (hu : UserNames os) (r' : Reg) (xs : List Res)
    (h : run true Reg.init os = some (r', xs)) : SpecRun Live.init os xs r'.live := by
  have := (run_spec os inv_init hu h).2
  rwa [live_init] at this

/-- After every such history: live names are unique, looking up the name of a live variable (by
`get_variable(name)`) returns that very variable, and `name()` of a live variable is its name. -/
theorem C11_lookup_partial (os : List Op) (hu : UserNames os) (r' : Reg) (xs : List Res)
    (h : run true Reg.init os = some (r', xs)) (s : Nat) (n : String) (hl : r'.live s = some n) :
    (∀ t, r'.live t = some n → t = s) ∧ step true r' (.get n) = some (r', .var s) ∧
    step true r' (.name s) = some (r', .str n) := by
  have hi := (run_spec os inv_init hu h).1
  have hm := (hi.map n s).2 hl
  refine ⟨fun t ht => ?_, by simp [step, hm], ?_⟩
  · have := (hi.map n t).2 ht
    rw [hm] at this; injection this with this; exact this.symm
  · by_cases hs0 : s = 0
    · subst hs0; rw [live_zero] at hl; injection hl with hl; subst hl
      simp [step, hi.zero]
    · simp [step, ((live_eq r' hs0 n).1 hl).2]

/-- A call by which the caller breaks a documented precondition. -/
def Misuse (L : Live) : Op → Prop
  | .newNamed n => n = "" ∨ ∃ s, L s = some n
  | .getSerial s => s = 0 ∨ L s = none
  | .name s => L s = none
  | _ => False

/-- The debug build stops only at a misuse; in particular lookups, `new_variable()` and deletions never
stop the process, and neither does any call on a live variable. -/
theorem C11_stops_only_on_misuse_partial (os : List Op) (hu : UserNames os) (r' : Reg) (xs : List Res)
    (h : run true Reg.init os = some (r', xs)) (o : Op) (hs : step true r' o = none) : Misuse r'.live o := by
  have hi := (run_spec os inv_init hu h).1
  cases o with
  | get n =>
    simp only [step] at hs
    rcases hm : r'.nameMap n with _ | s
    · simp only [hm, Bool.true_and] at hs
      split at hs
      · rename_i hc
        simp [isUserDefName] at hc
        subst hc
        rw [(hi.map "" 0).2 (live_zero _)] at hm; cases hm
      · cases hs
    · rw [hm] at hs; cases hs
  | newNamed n =>
    simp only [step] at hs
    split at hs
    · rename_i hc
      simp [isUserDefName] at hc
      rcases hc with hc | hc
      · obtain ⟨s, hc⟩ := Option.isSome_iff_exists.1 hc
        exact .inr ⟨s, (hi.map n s).1 hc⟩
      · exact .inl hc
    · cases hs
  | newAuto => simp [step] at hs
  | getSerial s =>
    simp only [step] at hs
    split at hs
    · rename_i hc
      simp at hc
      by_cases hs0 : s = 0
      · exact .inl hs0
      · exact .inr ((live_none _ hs0).2 (by simpa using hc))
    · cases hs
  | name s =>
    simp only [step, Option.map_eq_none_iff] at hs
    have hs0 : s ≠ 0 := by rintro rfl; rw [hi.zero] at hs; cases hs
    exact (live_none _ hs0).2 (.inl hs)
  | delSerial s => simp [step] at hs
  | delName n => simp [step] at hs

/-- The release build (`-D NDEBUG`) agrees with the debug build on every history that the debug build
completes. -/
theorem C11_release_agrees (os : List Op) (r : Reg) (p : Reg × List Res) (h : run true r os = some p) :
    run false r os = some p := by
  induction os generalizing r p with
  | nil => exact h
  | cons o os ih =>
    have hstep : ∀ q, step true r o = some q → step false r o = some q := by
      intro q hq
      cases o with
      | get n =>
        simp only [step] at hq ⊢
        rcases hm : r.nameMap n with _ | s
        · simp only [hm] at hq ⊢
          split at hq
          · cases hq
          · simpa using hq
        · simpa [hm] using hq
      | newNamed n =>
        simp only [step] at hq ⊢
        split at hq
        · cases hq
        · simpa using hq
      | getSerial s =>
        simp only [step] at hq ⊢
        split at hq
        · cases hq
        · simpa using hq
      | newAuto => exact hq
      | name s => exact hq
      | delSerial s => exact hq
      | delName n => exact hq
    simp only [run] at h ⊢
    rcases he : step true r o with _ | ⟨r1, x⟩
    · rw [he] at h; cases h
    · rw [he] at h; rw [hstep _ he]
      simp only [Option.map_eq_some_iff] at h ⊢
      obtain ⟨q, hq, e⟩ := h
      exact ⟨q, ih r1 q hq, e⟩

/-- The full property fails: a caller may create a variable called `#var_2` (the check
`is_user_def_variable_name` accepts every nonempty name), and then `new_variable()` hands out a second
live variable with the same name; looking that name up no longer finds the first one. -/
theorem C11_false_auto_name_collision :
    ∃ r', run true Reg.init [.get "#var_2", .newAuto] = some (r', [.var 1, .var 2]) ∧
      r'.live 1 = some "#var_2" ∧ r'.live 2 = some "#var_2" ∧
      step true r' (.get "#var_2") = some (r', .var 2) := ⟨_, rfl, by decide, by decide, rfl⟩

/-- In the release build `new_variable(name)` with a live name also duplicates it. -/
theorem C11_false_release_new_variable :
    ∃ r', run false Reg.init [.newNamed "x", .newNamed "x"] = some (r', [.var 1, .var 2]) ∧
      r'.live 1 = some "x" ∧ r'.live 2 = some "x" := ⟨_, rfl, by decide, by decide⟩

/-- Non-vacuity: a history with creation, automatic names, deletion and reuse of a serial. -/
example : ∃ r', run true Reg.init
    [.get "x", .get "y", .newAuto, .delName "x", .newNamed "z", .get "x", .get "y", .name 1, .delSerial 3, .newAuto] =
      some (r', [.var 1, .var 2, .var 3, .done, .var 1, .var 4, .var 2, .str "z", .done, .var 3]) ∧
      r'.live 3 = some "#var_3" := ⟨_, rfl, by decide⟩

theorem not_reserved_of {n : String} (h : n.toList.head? ≠ some '#') : ¬ Reserved n := by
  rintro ⟨k, rfl⟩
  simp at h

example : UserNames [.get "x", .newAuto, .newNamed "z"] := by
  intro n hn
  simp at hn
  rcases hn with rfl | rfl <;> exact not_reserved_of (by decide)

end CLPoly.Var
