import Verif.Bss.BddMgr
import Verif.Bss.ZddMgr

/-!
# Model of `bss::BssMgr`

/repo/bss/src/bss.rs.  A BDD world and a ZDD world side by side.  Simplification: `minpath` and `mincut` are only
applied to BDD handles of the same `BssMgr`.
-/

set_option autoImplicit false
set_option linter.unusedSectionVars false

namespace DD
open Arena

/-- /repo/bss/src/bss.rs:28-31, with the handles of both managers. -/
structure BssW where
  bdd : World
  zdd : ZWorld

/-- Public calls: any call on the BDD manager or its handles (/repo/bss/src/bss.rs:42-44, 53-91), any call on the
ZDD manager or its handles (47-49), and the calls of `BssMgr` itself. -/
inductive BssCmd where
  | bdd (c : Cmd)
  | zdd (c : ZCmd)
  | minpath (f : Nat)
  | mincut (f : Nat)
  | clearCache
deriving DecidableEq, Repr

/-- What a call returns; `fam` is the `Option<ZddNode>` of `minpath` and `mincut`. -/
inductive BssOut where
  | unit
  | bdd (o : Out)
  | zdd (o : ZOut)
  | fam (h : Option Nat)
deriving DecidableEq, Repr

/-- `BssMgr::zdd` hands out `&ZddMgr`, so calls that take `&mut self` (/repo/bss/src/zdd.rs:78, 99, 149) cannot be
made. -/
def ZCmd.shared : ZCmd → Bool
  | .singleton _ | .fromSets _ | .clearCache => false
  | _ => true

namespace BssW

/-- /repo/bss/src/bss.rs:109-127 -/
def minpath (w : BssW) (f : Nat) : Option (BssOut × BssW) :=
  match w.bdd.held.get f with
  | none => none
  | some i =>
    match w.bdd.mgr.bdd.minsol i with
    | none => none
    | some (none, b) => some (.fam none, { w with bdd := { w.bdd with mgr := { w.bdd.mgr with bdd := b } } })
    | some (some r, b) =>
      match w.zdd.give (w.zdd.mgr.wrap (Zdd.toZdd b.arena w.zdd.mgr.w.eng r)) with
      | none => none
      | some (_, z) =>
        some (.fam (some w.zdd.hs.next),
          { bdd := { w.bdd with mgr := { w.bdd.mgr with bdd := b } }, zdd := z })

/-- /repo/bss/src/bss.rs:134-136; the temporary handle of the dual is dropped at the end. -/
def mincut (w : BssW) (f : Nat) : Option (BssOut × BssW) :=
  match w.bdd.step (.dual f) with
  | some (.handle d, b) =>
    match ({ w with bdd := b } : BssW).minpath d with
    | none => none
    | some (o, w') =>
      match w'.bdd.step (.drop d) with
      | none => none
      | some (_, b') => some (o, { w' with bdd := b' })
  | _ => none

/-- One public call; `none` = panic, a handle that is not held, or a call that does not type-check in Rust. -/
def step (w : BssW) : BssCmd → Option (BssOut × BssW)
  | .bdd c => (w.bdd.step c).map (fun p => (.bdd p.1, { w with bdd := p.2 }))
  | .zdd c => if c.shared then (w.zdd.step c).map (fun p => (.zdd p.1, { w with zdd := p.2 })) else none
  | .minpath f => w.minpath f
  | .mincut f => w.mincut f
  -- bss.rs:93-96
  | .clearCache =>
    match w.bdd.step .clearCache, w.zdd.step .clearCache with
    | some (_, b), some (_, z) => some (.unit, { bdd := b, zdd := z })
    | _, _ => none

/-- /repo/bss/src/bss.rs:34-39 -/
def new : BssW := { bdd := World.new, zdd := ZWorld.new }

/-- A whole session: outputs in order. -/
def run (w : BssW) : List BssCmd → Option (List BssOut × BssW)
  | [] => some ([], w)
  | c :: cs =>
    match w.step c with
    | none => none
    | some (o, w') =>
      match run w' cs with
      | none => none
      | some (os, w'') => some (o :: os, w'')

end BssW
end DD
