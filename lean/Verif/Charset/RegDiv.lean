import Verif.Charset.RegMono

/-!
# Endless recursions of charset.hh
-/

namespace CLPoly
namespace Charset
open Mono Res

theorem at_fuel {α : Type} {o : ℕ → Option α} (hm : ∀ {n m}, n ≤ m → OLe (o n) (o m)) {k : ℕ} {v : α} (h : o k = some v) (n : ℕ) : o n = none ∨ o n = some v := by
  cases e : o n with
  | none => exact .inl rfl
  | some w =>
    right
    have h1 := hm (le_max_left n k)
    have h2 := hm (le_max_right n k)
    rw [← h2 v h, h1 w e]

instance decC : DecidableEq (List (List (PV Mono ℤ))) := inferInstanceAs (DecidableEq (List (List (List (Mono × ℤ)))))
instance decCC : DecidableEq (List (List (PV Mono ℤ)) × List (List (PV Mono ℤ))) := inferInstance

/-- `y²`, `x²` with `x = 1`, `y = 2` -/
def dvT : List (PV Mono ℤ) := [[(⟨[(2, 2)], 2⟩, 1)], [(⟨[(1, 2)], 2⟩, 1)]]
/-- `x² + y` -/
def dvF : PV Mono ℤ := [(⟨[(1, 2)], 2⟩, 1), (⟨[(2, 1)], 1⟩, 1)]

theorem rsd_diverges : ∀ n, rsd [1, 2] false n dvT dvF = none
  | 0 => rfl
  | n + 1 => by
    have ih := rsd_diverges n
    have e1 : remChain (varCustom [1, 2]) false dvT dvF = ok2 [(⟨[(2, 1)], 1⟩, 1)] := by decide +kernel
    have e2 := at_fuel (o := fun n => iterResB (varCustom [1, 2]) false n dvT dvF) (fun h => iterResB_mono h _ _) (k := 20) (v := some []) (by decide +kernel) n
    have e3 : custN [1, 2] (pFirstVar dvF) = 2 := by decide +kernel
    have e4 := at_fuel (o := fun n => subC (varCustom [1, 2]) false n dvF (dvT.getD 1 []) 1) (fun h => subC_mono h _ _ _) (k := 20)
      (v := some [[(⟨[(2, 2)], 2⟩, 1)], [(⟨[(2, 1)], 1⟩, -1)], [(⟨[(1, 2)], 2⟩, 1)], dvF]) (by decide +kernel) n
    have e5 : firstReg (varCustom [1, 2]) false 1 (dvT.take 1) ([[(⟨[(2, 2)], 2⟩, 1)], [(⟨[(2, 1)], 1⟩, -1)], [(⟨[(1, 2)], 2⟩, 1)], dvF] : List (PV Mono ℤ)).zipIdx = ok2 ([(⟨[(1, 2)], 2⟩, 1)], 2) := by
      decide +kernel
    have e6 := at_fuel (o := fun n => iterResB (varCustom [1, 2]) false n (dvT.take 1) (pscOf 2 [(⟨[(1, 2)], 2⟩, 1)])) (fun h => iterResB_mono h _ _) (k := 20) (v := some [(⟨[], 0⟩, 1)]) (by decide +kernel) n
    have e7 : remChain (varCustom [1, 2]) false (dvT.take 1) [(⟨[(1, 2)], 2⟩, 1)] = ok2 [(⟨[(1, 2)], 2⟩, 1)] := by decide +kernel
    have e8 : pquoC (varCustom [1, 2]) false 1 (dvT.getD 1 []) [(⟨[(1, 2)], 2⟩, 1)] = ok2 [(⟨[], 0⟩, 1)] := by decide +kernel
    have e9 : (degreeLex (varCustom [1, 2]) dvF 1 ≥ pFirstDeg (dvT.getD 1 [])) := by decide +kernel
    have e10 : pFirstVar (dvT.getD 1 []) = 1 := by decide +kernel
    have e11 : dvT.take 1 ++ [[(⟨[(1, 2)], 2⟩, 1)]] = dvT := by decide +kernel
    rw [rsd]
    dsimp only
    rw [e1]
    simp only [ok2, bind2]
    rw [if_neg (by simp)]
    rcases e2 with e2 | e2 <;> rw [e2]
    dsimp only
    rw [if_neg (by simp), e3, if_neg (by decide), if_neg (by decide)]
    simp only [Nat.add_one_sub_one, show 2 - 1 = 1 from rfl, e10]
    rw [if_pos e9]
    rcases e4 with e4 | e4 <;> rw [e4]
    dsimp only
    rw [e5]
    simp only [ok2]
    rcases e6 with e6 | e6 <;> rw [e6]
    dsimp only
    rw [if_pos (by simp), if_neg (by simp), e7]
    simp only [ok2]
    rw [e8]
    simp only [ok2]
    rw [e11, ih]

/-- `y²`, `x³`, `z² + xy` with `z = 1`, `x = 2`, `y = 3` -/
def sqT : List (PV Mono ℤ) := [[(⟨[(3, 2)], 2⟩, 1)], [(⟨[(2, 3)], 3⟩, 1)], [(⟨[(1, 2)], 2⟩, 1), (⟨[(2, 1), (3, 1)], 2⟩, 1)]]

theorem rcToSqf_diverges : ∀ n, rcToSqf [1, 2, 3] false n sqT = none
  | 0 => rfl
  | n + 1 => by
    have ih := rcToSqf_diverges n
    have e1 := at_fuel (o := fun n => lastDisc (varCustom [1, 2, 3]) false n sqT 2) (fun h => lastDisc_mono h _ _) (k := 20) (v := some 2) (by decide +kernel) n
    have e2 := at_fuel (o := fun n => discC (varCustom [1, 2, 3]) false n (sqT.getD 2 []) 1) (fun h => discC_mono h _ _) (k := 20) (v := some [(⟨[(2, 1), (3, 1)], 2⟩, -4)]) (by decide +kernel) n
    have e3 := at_fuel (o := fun n => wrsd [1, 2, 3] false n (sqT.take 2) [(⟨[(2, 1), (3, 1)], 2⟩, -4)]) (fun h => wrsd_mono _ h _ _) (k := 20) (v := some ([sqT.take 2], [])) (by decide +kernel) n
    have e4 : pFirstVar (sqT.getD 2 []) = 1 := by decide +kernel
    have e5 : ¬ (degreeLex (varCustom [1, 2, 3]) (derivative 1 (sqT.getD 2 [])) 1 > pFirstDeg (sqT.getD 2 [])) := by decide +kernel
    have e6 := at_fuel (o := fun n => subC (varCustom [1, 2, 3]) false n (sqT.getD 2 []) (derivative 1 (sqT.getD 2 [])) 1) (fun h => subC_mono h _ _ _) (k := 20)
      (v := some [[(⟨[(2, 1), (3, 1)], 2⟩, 4)], [(⟨[(1, 1)], 1⟩, 2)], sqT.getD 2 []]) (by decide +kernel) n
    have e7 : firstReg (varCustom [1, 2, 3]) false 1 (sqT.take 2) ([[(⟨[(2, 1), (3, 1)], 2⟩, 4)], [(⟨[(1, 1)], 1⟩, 2)], sqT.getD 2 []] : List (PV Mono ℤ)).zipIdx = ok2 ([(⟨[(2, 1), (3, 1)], 2⟩, 4)], 0) := by
      decide +kernel
    have e8 := at_fuel (o := fun n => iterResB (varCustom [1, 2, 3]) false n (sqT.take 2) (pscOf 0 [(⟨[(2, 1), (3, 1)], 2⟩, 4)])) (fun h => iterResB_mono h _ _) (k := 20) (v := some []) (by decide +kernel) n
    have e9 := at_fuel (o := fun n => wrsd [1, 2, 3] false n (sqT.take 2) (pscOf 0 [(⟨[(2, 1), (3, 1)], 2⟩, 4)])) (fun h => wrsd_mono _ h _ _) (k := 20) (v := some ([sqT.take 2], [])) (by decide +kernel) n
    have e10 : sqT.take 2 ++ sqT.drop 2 = sqT := by decide +kernel
    rw [rcToSqf]
    dsimp only
    rw [if_neg (by decide), show sqT.length - 1 = 2 from rfl]
    rcases e1 with e1 | e1 <;> rw [e1]
    · rfl
    simp only [bind2]
    rw [if_neg (by decide), e4]
    rcases e2 with e2 | e2 <;> rw [e2]
    dsimp only
    rcases e3 with e3 | e3 <;> rw [e3]
    dsimp only
    rw [if_neg e5]
    simp only [collect1, ok2]
    rcases e6 with e6 | e6 <;> rw [e6]
    dsimp only
    rw [e7]
    simp only [ok2]
    rcases e8 with e8 | e8 <;> rw [e8]
    dsimp only
    rw [if_neg (by simp)]
    rcases e9 with e9 | e9 <;> rw [e9]
    simp only [collect1, bind2]
    rw [e10, ih]

end Charset
end CLPoly
