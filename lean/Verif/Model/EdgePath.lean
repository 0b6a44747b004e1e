/-
Model of `EdgePath`, topo_spaces/src/cubical.rs:1156-1271.

`[usize; 2]` is a pair, `Vec` is `List`, `none` is a panic.  The panic message of `evaluate_permutation` is not modelled.
-/
namespace Toppo.EdgePath

/-- a motion `[from, to]` along an edge. Used for cubical.rs:1156-1157. -/
abbrev Move := Nat × Nat

/-- `struct EdgePath`, cubical.rs:1156-1157: a list of steps, each a list of motions -/
abbrev Path := List (List Move)

/-- `trivial_path`, cubical.rs:1160-1162 -/
def trivialPath : Path := []

/-- the closure `commute`, cubical.rs:1166-1173 -/
def commute (v : List Move) (w : Move) : Bool :=
  v.all (fun i => !(i.1 == w.2 || i.2 == w.1 || i.2 == w.2 || i.1 == w.1))

/-- the closure `composable`, cubical.rs:1175-1182 -/
def composable (v : List Move) (w : Move) : Bool :=
  v.all (fun i => !(i.2 == w.1 || i.1 == w.2 || i.2 == w.2 || i.1 == w.1))

/-- the closure `cancelable`, cubical.rs:1184-1190 -/
def cancelable (v w : Move) : Bool := v.2 == w.1 && v.1 == w.2

/-- `(0..out.len()).rev().find(|&i| !commute(&out[i], &step))`, cubical.rs:1195, over the indices below `n` -/
def lastBlocking (out : Path) (s : Move) : Nat → Option Nat
  | 0 => none
  | n + 1 => if !commute (out.getD n []) s then some n else lastBlocking out s n

/-- the body of the loop, cubical.rs:1194-1213; the flag says whether two motions were cancelled.  `out[0].push(step)` panics when `out` is
empty (1212). -/
def step (out : Path) (s : Move) : Option (Path × Bool) :=
  match lastBlocking out s out.length with
  | some i =>
    let layer := out.getD i []
    if composable layer s then some (out.set i (layer ++ [s]), false)
    else match (List.range layer.length).find? (fun j => cancelable (layer.getD j (0, 0)) s) with
      | some idx =>
        if (layer.eraseIdx idx).isEmpty then some (out.eraseIdx i, true) else some (out.set i (layer.eraseIdx idx), true)
      | none =>
        if i + 1 = out.length then some (out ++ [[s]], false)
        else some (out.set (i + 1) (out.getD (i + 1) [] ++ [s]), false)
  | none =>
    match out with
    | [] => none
    | l :: ls => some ((l ++ [s]) :: ls, false)

/-- the loop, cubical.rs:1194-1213 -/
def pass (out : Path) (canceled : Bool) : List Move → Option (Path × Bool)
  | [] => some (out, canceled)
  | s :: ss =>
    match step out s with
    | none => none
    | some (out', c) => pass out' (canceled || c) ss

/-- `reduce_to_geodesic`, cubical.rs:1163-1220; `fuel` bounds the recursion depth -/
def reduceFuel : Nat → Path → Option Path
  | 0, _ => none
  | fuel + 1, p =>
    match pass [[]] false p.flatten with
    | none => none
    | some (out, canceled) => if canceled then reduceFuel fuel out else some out

/-- `reduce_to_geodesic`, cubical.rs:1163-1220.  Two rounds always suffice (proved: `reduce_eq`), so the bound is never met. -/
def reduce (p : Path) : Option Path := reduceFuel (p.flatten.length + 2) p

/-- `composed_with`, cubical.rs:1222-1225 -/
def composedWith (p q : Path) : Path := p ++ q

/-- `inverse`, cubical.rs:1246-1258 -/
def inverse (p : Path) : Option Path := reduce ((p.map (fun st => (st.map (fun e => (e.2, e.1))).reverse)).reverse)

/-- `(0..N).find(|&i| out[i] == edge[0])` and the update `next[update_idx] = edge[1]`, cubical.rs:1237-1239 -/
def moveOne (out next : List Nat) (e : Move) : Option (List Nat) :=
  match (List.range out.length).find? (fun i => out.getD i 0 == e.1) with
  | none => none
  | some i => some (next.set i e.2)

/-- one step, cubical.rs:1234-1241: the edges are all looked up in the positions before the step -/
def moveStep (out : List Nat) : List Nat → List Move → Option (List Nat)
  | next, [] => some next
  | next, e :: es =>
    match moveOne out next e with
    | none => none
    | some next' => moveStep out next' es

/-- the loop over the steps, cubical.rs:1234-1241 -/
def moveAll : List Nat → Path → Option (List Nat)
  | out, [] => some out
  | out, st :: sts =>
    match moveStep out out st with
    | none => none
    | some out' => moveAll out' sts

/-- `evaluate_permutation`, cubical.rs:1227-1244, as the array wrapped in the result -/
def evaluate (n : Nat) (p : Path) : Option (List Nat) := moveAll (List.range n) p

end Toppo.EdgePath
