import Verif.Poly.ConvertDefs
import Verif.Graph.Defs
import Mathlib.Data.Nat.Choose.Basic

/-!
# Model of random.hh

The random engine is not modelled: every function takes the values the distributions return as arguments, and the theorems
quantify over all of them.  `std::uniform_int_distribution` is assumed to return a value of its range.
`uint64_t` arithmetic wraps (`w64`).
-/

namespace CLPoly.Random

/-- reduction of `uint64_t` arithmetic -/
def w64 (a : ℕ) : ℕ := a % 2 ^ 64

/-- random.hh 25–33 `detail::binomial` -/
def binomial (n k : ℕ) : ℕ :=
  if n < k then 0
  else if k = 0 ∨ k = n then 1
  else
    let k := if n - k < k then n - k else k
    (List.range k).foldl (fun r i => w64 (r * (n - i)) / (i + 1)) 1

/-- random.hh 37–39 `detail::monomial_count_upto` -/
def countUpto (n d : ℕ) : ℕ := binomial (w64 (d + n)) n

/-- random.hh 43–45 `detail::monomial_count_exact`, for `n ≥ 1` -/
def countExact (n d : ℕ) : ℕ := binomial (w64 (d + n - 1)) (n - 1)

/-- random.hh 54–64, 74–82: the inner loop; `k` iterations are left.  Returns the exponent, `rem` and `index` afterwards. -/
def pick (cnt : ℕ → ℕ) (rem : ℕ) : ℕ → ℕ → ℕ → ℕ × ℕ × ℕ
  | 0, _, idx => (0, rem, idx)
  | k + 1, e, idx => if idx < cnt e then (e, rem - e, idx) else pick cnt rem k (e + 1) (idx - cnt e)

/-- random.hh 50–67 `detail::unrank_monomial_upto`; the first argument is `n_vars - i` -/
def unrankUpto : ℕ → ℕ → ℕ → List ℕ
  | 0, _, _ => []
  | n + 1, rem, idx =>
    let s := pick (fun e => if 0 < n then countUpto n (rem - e) else 1) rem (rem + 1) 0 idx
    s.1 :: unrankUpto n s.2.1 s.2.2

/-- random.hh 71–87 `detail::unrank_monomial_exact`, for `n_vars ≥ 1` (`exp[n_vars - 1]` is undefined behaviour for `n_vars = 0`) -/
def unrankExact : ℕ → ℕ → ℕ → List ℕ
  | 0, _, _ => []
  | 1, rem, _ => [rem]
  | n + 2, rem, idx =>
    let s := pick (fun e => countExact (n + 1) (rem - e)) rem (rem + 1) 0 idx
    s.1 :: unrankExact (n + 1) s.2.1 s.2.2

/-- random.hh 89–117 `random_select`; `draws` are the values of `dis(gen)` -/
def randomSelect (m n : ℕ) (noRepeat : Bool) (draws : List ℕ) : List ℕ :=
  if noRepeat && decide (m ≤ n) then List.range m
  else
    let v := vecSort (fun a b => decide (a ≤ b)) (draws.take n)
    if noRepeat then v.mapIdx fun i x => x + i else v

/-- random.hh 132: the range of the coefficients after the swap -/
def coefRange (c : ℤ × ℤ) : ℤ × ℤ := if c.2 < c.1 then (c.2, c.1) else c

/-- random.hh 145–149 `nonzero_coeff`: the first non-zero coefficient of the stream; `none` if the loop does not end on it -/
def nonzeroCoeff (R : Type _) [IntCast R] [Zero R] [DecidableEq R] : List ℤ → Option (R × List ℤ)
  | [] => none
  | c :: cs => if (c : R) ≠ 0 then some ((c : R), cs) else nonzeroCoeff R cs

/-- random.hh 152–158 `make_mono` -/
def makeMono (vc : Var → Var → Bool) (v : List Var) (e : List ℕ) : Mono := Mono.normalize vc (v.zip (e.map Int.ofNat))

/-- random.hh 166–168, 183: the terms of the chosen monomials -/
def attach (R : Type _) [IntCast R] [Zero R] [DecidableEq R] (vc : Var → Var → Bool) (v : List Var) :
    List (List ℕ) → List ℤ → Option (PV Mono R × List ℤ)
  | [], cs => some ([], cs)
  | e :: es, cs =>
    match nonzeroCoeff R cs with
    | none => none
    | some (c, cs) =>
      match attach R vc v es cs with
      | none => none
      | some (r, cs) => some ((makeMono vc v e, c) :: r, cs)

/-- random.hh 165, 173–182: the exponent vectors of the polynomial -/
def chosen (n deg lo total len first : ℕ) (draws : List ℕ) : List (List ℕ) :=
  unrankExact n deg first ::
    if 1 < len then
      (randomSelect (total - 1) (len - 1) true draws).map fun idx =>
        if idx < lo then unrankUpto n (deg - 1) idx
        else
          let x := idx - lo
          unrankExact n deg (if first ≤ x then x + 1 else x)
    else []

/-- random.hh 131–196 `random_polynomial(v,deg,len,coeff,is_add_num)`: `first` is `hi_dis(gen)`, `draws` the stream of `random_select`,
`cs` the stream of `dis(gen)`. -/
def randomPoly (R : Type _) [IntCast R] [Zero R] [Add R] [DecidableEq R] (vc : Var → Var → Bool) (mc : Mono → Mono → Bool)
    (v : List Var) (deg len : ℕ) (addNum : Bool) (first : ℕ) (draws : List ℕ) (cs : List ℤ) : Option (PV Mono R) :=
  let n := v.length
  let total := countUpto n deg
  let hi := countExact n deg
  let lo := total - hi
  let len := if total < len then total else len
  if len = 0 then some []
  else
    match attach R vc v (chosen n deg lo total len first draws) cs with
    | none => none
    | some (p1, cs) =>
      if addNum && !(p1.any fun t => t.1.data.isEmpty) then
        match nonzeroCoeff R cs with
        | none => none
        | some (c, _) => some (polyNormalize vc mc (p1 ++ [(Mono.one, c)]))
      else some (polyNormalize vc mc p1)

/-! ## the dense generator -/

/-- random.hh 225–240: the inner `while (i0>=0)`; the first argument is `i0 + 1` -/
def back (size d : ℕ) : ℕ → List ℕ → ℕ → Option (List ℕ × ℕ × ℕ)
  | 0, _, _ => none
  | i + 1, m, sum =>
    if m.getD i 0 ≠ 0 ∧ i < size - 1 then
      some ((m.set i (m.getD i 0 - 1)).set (i + 1) (d - sum + 1), i + 1, d)
    else back size d i (m.set i 0) (sum - m.getD i 0)

/-- random.hh 219–244: the `while(1)` loop; the exponent vectors visited.  The first argument is fuel. -/
def visit (size d : ℕ) : ℕ → List ℕ → ℕ → ℕ → Option (List (List ℕ))
  | 0, _, _, _ => none
  | f + 1, m, i0, sum =>
    match back size d (i0 + 1) m sum with
    | none => some [m]
    | some (m', i', s') => (visit size d f m' i' s').map (m :: ·)

/-- random.hh 211–254: the exponent vectors visited for `d = deg, …, 0`; the constant is visited as the zero vector -/
def visitAll (size f : ℕ) : ℕ → Option (List (List ℕ))
  | 0 => some [List.replicate size 0]
  | d + 1 =>
    match visit size (d + 1) f ((List.replicate size 0).set 0 (d + 1)) 0 (d + 1), visitAll size f d with
    | some a, some b => some (a ++ b)
    | _, _ => none

/-- random.hh 198–256 `random_polynomial(v,deg,p,up,down)`, `v` non-empty: `bs` are the values of `mp(gen)`, `cs` those of `dis(gen)`, one for each
vector visited (the second is only drawn when the first is true). -/
def randomDense (R : Type _) [IntCast R] [Zero R] [Add R] [DecidableEq R] (vc : Var → Var → Bool) (mc : Mono → Mono → Bool)
    (v : List Var) (deg f : ℕ) (bs : ℕ → Bool) (cs : ℕ → ℤ) : Option (PV Mono R) :=
  (visitAll v.length f deg).map fun es =>
    polyNormalize vc mc (((es.zipIdx).filter fun x => bs x.2).map fun x => (makeMono vc v x.1, ((cs x.2 : ℤ) : R)))

/-! ## samples, rational coefficients, graphs -/

/-- random.hh 283–295: the position of the `select`-th `true`; `none` if there is none -/
def nthTrue : List Bool → ℕ → ℕ → Option ℕ
  | [], _, _ => none
  | b :: bl, j, select => if b then (if select - 1 = 0 then some j else nthTrue bl (j + 1) (select - 1)) else nthTrue bl (j + 1) select

/-- random.hh 272–297: the loop; `k` is `i`, `sel i` the value of `dis(gen)` -/
def sampleLoop {α : Type _} [Inhabited α] (l : List α) (sel : ℕ → ℕ) : ℕ → List Bool → List α → List α
  | 0, _, out => out
  | k + 1, bl, out =>
    match nthTrue bl 0 (if k + 1 = 1 then 1 else sel (k + 1)) with
    | none => sampleLoop l sel k bl out
    | some j => sampleLoop l sel k (bl.set j false) (out ++ [l.getD j default])

/-- random.hh 258–299 `RandomSample` -/
def randomSample {α : Type _} [Inhabited α] (l : List α) (n : ℕ) (sel : ℕ → ℕ) : List α :=
  sampleLoop l sel (min n l.length) (List.replicate l.length true) []

/-- random.hh 312–326 `random_polynomial_QQ`: `p` is the integer polynomial, `dens` the values of `den_dis(gen)` -/
def randomQQ (vc : Var → Var → Bool) (mc : Mono → Mono → Bool) (p : PV Mono ℤ) (dens : ℕ → ℤ) : PV Mono ℚ :=
  polyNormalize vc mc (p.zipIdx.map fun x => (x.1.1, ((x.1.2 : ℚ) / (dens x.2 : ℚ))))

/-- random.hh 328–345 `random_graph`: `coin i j` is the value of `d(gen)` for the pair -/
def randomGraph {α : Type _} [DecidableEq α] (nodes : List α) (coin : ℕ → ℕ → Bool) : Graph α :=
  let G := nodes.foldl Graph.addNode Graph.empty
  let n := G.nodes.length
  (List.range n).foldl (fun G i => ((List.range n).filter fun j => decide (i + 1 ≤ j) && coin i j).foldl (fun G j => G.addEdgeIdx i j false) G) G

end CLPoly.Random
