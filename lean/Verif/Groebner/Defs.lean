import Verif.Mono.Defs
import Verif.Num.Outcome

/-!
# Model of /repo/clpoly/groebner.hh

Polynomials are term vectors `PV Mono R`; `vc` is the variable order, `mc` the monomial order, `dv` the coefficient division
`operator/` of the coefficient type.  Loops that are not bounded by a container take fuel: `none` means that the fuel ran out.
`front()` of an empty polynomial is undefined behaviour: `Out.ub` in the public functions; the internal functions are only reached with
nonempty polynomials (`BInv`), there `lm`/`lc` of an empty vector are arbitrary.
Sugar degrees are `int64_t` in C++ and integers here.
-/

namespace CLPoly.GB
open CLPoly Mono

section
variable {R : Type _} [DecidableEq R] [Zero R] [One R] [Sub R] [Neg R] [Mul R]

/-- `p.front().first` -/
def lm (p : PV Mono R) : Mono := (p.headD (Mono.one, 0)).1
/-- `p.front().second` -/
def lc (p : PV Mono R) : R := (p.headD (Mono.one, 0)).2

/-- groebner.hh 40–46, 82–87: every term times the monomial `q`, coefficients through `f`. -/
def mapTerms (vc : Var → Var → Bool) (p : PV Mono R) (q : Mono) (f : R → R) : PV Mono R :=
  p.map fun t => (mul vc t.1 q, f t.2)

/-- groebner.hh 20–56 `__s_polynomial` after the assertion. -/
def sPoly (vc : Var → Var → Bool) (mc : Mono → Mono → Bool) (dv : R → R → R) (f g : PV Mono R) : PV Mono R :=
  let L := lcm vc (lm f) (lm g)
  pvSub mc (mapTerms vc f (div vc L (lm f)) fun c => dv c (lc f)) (mapTerms vc g (div vc L (lm g)) fun c => dv c (lc g))

/-- groebner.hh 58–65 `s_polynomial`; the assertion 25 fails on a zero polynomial (debug build: the process stops; release build:
undefined behaviour). -/
def sPolynomial (vc : Var → Var → Bool) (mc : Mono → Mono → Bool) (dv : R → R → R) (f g : PV Mono R) : Out (PV Mono R) :=
  if f = [] ∨ g = [] then .ub else .ok (sPoly vc mc dv f g)

/-- groebner.hh 80–82, 127–129: the first element of `G` whose leading monomial divides `m`: its index, the element, the quotient. -/
def findDiv (vc : Var → Var → Bool) (m : Mono) : Nat → List (PV Mono R) → Out (Option (Nat × PV Mono R × Mono))
  | _, [] => .ok none
  | i, g :: G =>
    if g = [] then .ub
    else match divExact vc m (lm g) with
      | some q => .ok (some (i, g, q))
      | none => findDiv vc m (i + 1) G

/-- groebner.hh 84–95: `h - c·q·g` -/
def cancel (vc : Var → Var → Bool) (mc : Mono → Mono → Bool) (dv : R → R → R) (h g : PV Mono R) (q : Mono) : PV Mono R :=
  pvSub mc h (mapTerms vc g q fun x => x * dv (lc h) (lc g))

/-- groebner.hh 76–108: the loop of `__normal_form`; `r` is the remainder so far. -/
def nfLoop (vc : Var → Var → Bool) (mc : Mono → Mono → Bool) (dv : R → R → R) (G : List (PV Mono R)) :
    Nat → PV Mono R → PV Mono R → Option (Out (PV Mono R))
  | 0, _, _ => none
  | n + 1, h, r =>
    match h with
    | [] => some (.ok r)
    | t :: h' =>
      match findDiv vc t.1 0 G with
      | .ok (some (_, g, q)) => nfLoop vc mc dv G n (cancel vc mc dv (t :: h') g q) r
      | .ok none => nfLoop vc mc dv G n h' (r ++ [t])
      | _ => some .ub

/-- groebner.hh 69–110 `__normal_form`, 162–168 `normal_form`. -/
def normalForm (vc : Var → Var → Bool) (mc : Mono → Mono → Bool) (dv : R → R → R) (fuel : Nat) (f : PV Mono R) (G : List (PV Mono R)) :
    Option (Out (PV Mono R)) :=
  if f = [] ∨ G = [] then some (.ok f) else nfLoop vc mc dv G fuel f []

/-- groebner.hh 121–157: the loop of `__normal_form_with_sugar`. -/
def nfSugarLoop (vc : Var → Var → Bool) (mc : Mono → Mono → Bool) (dv : R → R → R) (G : List (PV Mono R)) (sugar : List Int) :
    Nat → PV Mono R → PV Mono R → Int → Option (Out (PV Mono R × Int))
  | 0, _, _, _ => none
  | n + 1, h, r, s =>
    match h with
    | [] => some (.ok (r, s))
    | t :: h' =>
      match findDiv vc t.1 0 G with
      | .ok (some (i, g, q)) =>
        nfSugarLoop vc mc dv G sugar n (cancel vc mc dv (t :: h') g q) r (max s (sugar.getD i 0 + t.1.deg - (lm g).deg))
      | .ok none => nfSugarLoop vc mc dv G sugar n h' (r ++ [t]) s
      | _ => some .ub

/-- groebner.hh 112–159 `__normal_form_with_sugar`; returns the polynomial and the updated `f_sugar`. -/
def nfSugar (vc : Var → Var → Bool) (mc : Mono → Mono → Bool) (dv : R → R → R) (fuel : Nat) (f : PV Mono R) (G : List (PV Mono R))
    (sugar : List Int) (s : Int) : Option (Out (PV Mono R × Int)) :=
  if f = [] ∨ G = [] then some (.ok (f, s)) else nfSugarLoop vc mc dv G sugar fuel f [] s

/-- groebner.hh 172–180 `__make_monic`. -/
def makeMonic (dv : R → R → R) (f : PV Mono R) : PV Mono R :=
  if f = [] then f else if lc f = 1 then f else f.map fun t => (t.1, dv t.2 (lc f))

/-- groebner.hh 184–188 `__critical_pair` -/
structure CP where
  i : Nat
  j : Nat
  sugar : Int
  lcmDeg : Int
  deriving DecidableEq, Repr

/-- groebner.hh 190–195 `__cp_compare` -/
def cpLt (a b : CP) : Bool := if a.sugar ≠ b.sugar then decide (a.sugar < b.sugar) else decide (a.lcmDeg < b.lcmDeg)

/-- `G[k]` -/
def at' (G : List (PV Mono R)) (k : Nat) : PV Mono R := G.getD k []

/-- the state of the main loop -/
structure BSt (R : Type _) where
  G : List (PV Mono R)
  pairs : List CP
  sugar : List Int

/-- groebner.hh 208–217: the candidates `(k, new_idx)`. -/
def newPairs (vc : Var → Var → Bool) (G : List (PV Mono R)) (sugar : List Int) (h : PV Mono R) (hs : Int) : List CP :=
  (List.range G.length).map fun k =>
    let L := lcm vc (lm (at' G k)) (lm h)
    ⟨k, G.length, max (sugar.getD k 0 + L.deg - (lm (at' G k)).deg) (hs + L.deg - (lm h).deg), L.deg⟩

/-- groebner.hh 221–234: is the old pair kept? -/
def keepOld (vc : Var → Var → Bool) (G : List (PV Mono R)) (h : PV Mono R) (cp : CP) : Bool :=
  let Lij := lcm vc (lm (at' G cp.i)) (lm (at' G cp.j))
  if (divExact vc Lij (lm h)).isSome then
    let Lih := lcm vc (lm (at' G cp.i)) (lm h)
    let Lhj := lcm vc (lm h) (lm (at' G cp.j))
    if Lih ≠ Lij ∧ Lhj ≠ Lij then false else true
  else true

/-- groebner.hh 250–268: keep a new pair unless its lcm is divisible by the lcm of one kept before. -/
def minimalNew (vc : Var → Var → Bool) (G : List (PV Mono R)) (h : PV Mono R) : List CP → List (CP × Mono) → List (CP × Mono)
  | [], acc => acc
  | p :: ps, acc =>
    let L := lcm vc (lm (at' G p.i)) (lm h)
    if acc.any fun a => (divExact vc L a.2).isSome then minimalNew vc G h ps acc else minimalNew vc G h ps (acc ++ [(p, L)])

/-- groebner.hh 197–284 `__update`.  `sort` stands for the call of `std::sort` at 238–241 with the comparator on `lcm_deg`. -/
def update (vc : Var → Var → Bool) (sort : List CP → List CP) (st : BSt R) (h : PV Mono R) (hs : Int) : BSt R :=
  let np := sort (newPairs vc st.G st.sugar h hs)
  let kept := st.pairs.filter (keepOld vc st.G h)
  let minimal := (minimalNew vc st.G h np []).map Prod.fst
  let final := minimal.filter fun p => decide ((gcd vc (lm (at' st.G p.i)) (lm h)).deg ≠ 0)
  ⟨st.G ++ [h], kept ++ final, st.sugar ++ [hs]⟩

/-- groebner.hh 292–309: does another element's leading monomial divide that of `G[i]`? -/
def redundant (vc : Var → Var → Bool) (G : List (PV Mono R)) (i : Nat) : Bool :=
  (List.range G.length).any fun j => decide (j ≠ i) && (divExact vc (lm (at' G i)) (lm (at' G j))).isSome

/-- groebner.hh 291–310: the loop removing redundant elements. -/
def dropRedundant (vc : Var → Var → Bool) (G : List (PV Mono R)) (i : Nat) : List (PV Mono R) :=
  if h : i < G.length then
    if redundant vc G i then dropRedundant vc (G.eraseIdx i) i else dropRedundant vc G (i + 1)
  else G
termination_by G.length - i
decreasing_by
  · rw [List.length_eraseIdx_of_lt h]; omega
  · omega

/-- groebner.hh 313–321: the loop reducing every element by the others. -/
def reduceAll (vc : Var → Var → Bool) (mc : Mono → Mono → Bool) (dv : R → R → R) (fuel : Nat) :
    Nat → List (PV Mono R) → Option (Out (List (PV Mono R)))
  | 0, G => some (.ok G)
  | k + 1, G =>
    let i := G.length - (k + 1)
    match normalForm vc mc dv fuel (at' G i) (G.eraseIdx i) with
    | none => none
    | some (.ok r) => reduceAll vc mc dv fuel k (G.set i (makeMonic dv r))
    | some _ => some .ub

/-- groebner.hh 288–322 `__interreduce`. -/
def interreduce (vc : Var → Var → Bool) (mc : Mono → Mono → Bool) (dv : R → R → R) (fuel : Nat) (G : List (PV Mono R)) :
    Option (Out (List (PV Mono R))) :=
  let G := dropRedundant vc G 0
  reduceAll vc mc dv fuel G.length G

/-- groebner.hh 368: `std::min_element`: the first smallest pair. -/
def minElem (c : CP) : List CP → CP
  | [] => c
  | x :: xs => minElem (if cpLt x c then x else c) xs

/-- groebner.hh 366–383: the main loop. -/
def mainLoop (vc : Var → Var → Bool) (mc : Mono → Mono → Bool) (dv : R → R → R) (sort : List CP → List CP) :
    Nat → BSt R → Option (Out (BSt R))
  | 0, _ => none
  | n + 1, st =>
    match st.pairs with
    | [] => some (.ok st)
    | c :: cs =>
      let cp := minElem c cs
      let st' := { st with pairs := st.pairs.erase cp }
      match nfSugar vc mc dv n (sPoly vc mc dv (at' st.G cp.i) (at' st.G cp.j)) st.G st.sugar cp.sugar with
      | none => none
      | some (.ok (h, hs)) =>
        if h = [] then mainLoop vc mc dv sort n st' else mainLoop vc mc dv sort n (update vc sort st' (makeMonic dv h) hs)
      | some _ => some .ub

/-- polynomial_.hh 259–269 `get_deg` -/
def polyDeg (p : PV Mono R) : Int := p.foldl (fun d t => max t.1.deg d) (lm p).deg

/-- groebner.hh 324–388 `__buchberger`. -/
def buchbergerAlg (vc : Var → Var → Bool) (mc : Mono → Mono → Bool) (dv : R → R → R) (sort : List CP → List CP) (fuel : Nat)
    (F : List (PV Mono R)) : Option (Out (List (PV Mono R))) :=
  let G := (F.filter fun f => f ≠ []).map (makeMonic dv)
  match G with
  | [] => some (.ok [])
  | [_] => interreduce vc mc dv fuel G
  | g0 :: Gs =>
    let st := Gs.foldl (fun st g => update vc sort st g (polyDeg g)) ⟨[g0], [], [polyDeg g0]⟩
    match mainLoop vc mc dv sort fuel st with
    | none => none
    | some (.ok st) => interreduce vc mc dv fuel st.G
    | some _ => some .ub

end
end CLPoly.GB
