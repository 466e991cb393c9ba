import Verif.Wrap.Borrow

/-!
# The borrows of every public call of the wrappers

One entry per public function of /repo/bss/src and /repo/mss/src that takes a manager, a handle or an iterator, with
the lines it was read from.  Not followed: the handles a panicking call drops while it unwinds (their borrows of the
collector state come after the guards of the frames above them are gone).
-/

set_option autoImplicit false

namespace DD.Borrow
open Prog

/-- Forest and collector state of one manager. -/
structure Cells where
  d : Cell
  g : Cell

/-- A public call: its name and its borrows. -/
structure Call where
  name : String
  prog : Prog

/-- `p` then the rest. -/
def steps : List Prog → Prog
  | [] => .done
  | [p] => p
  | p :: ps => .seq p (steps ps)

namespace Cells
variable (c : Cells)

/-- `from_weak`: /repo/bss/src/bdd.rs:78-87, /repo/bss/src/zdd.rs:167-176, /repo/mss/src/mdd.rs:72-81,
/repo/mss/src/zmdd.rs:142-153.  Also `clone`. -/
def pin : Prog := .ifUp c.g (.excl c.g .work)

/-- `Drop`: /repo/bss/src/bdd.rs:106-118, /repo/bss/src/zdd.rs:314-326, /repo/mss/src/mdd.rs:94-106,
/repo/mss/src/zmdd.rs:320-332 -/
def unpin : Prog := .ifUp c.g (.excl c.g .work)

/-- `maybe_gc`: /repo/bss/src/bdd.rs:35-47, /repo/bss/src/zdd.rs:22-34, /repo/mss/src/mdd.rs:29-44,
/repo/mss/src/zmdd.rs:24-39.  Both guards of the condition live until its end. -/
def maybeGc : Prog :=
  .seq (.shared c.d (.shared c.g .work)) (.alt .done (steps [.shared c.g .work, .excl c.d .work, .excl c.g .work]))

/-- `wrap` of a manager: /repo/bss/src/bdd.rs:150-154, /repo/bss/src/zdd.rs:119-123, /repo/mss/src/mdd.rs:159-163,
/repo/mss/src/zmdd.rs:64-68 -/
def wrap : Prog := .seq c.pin c.maybeGc

/-- `rewrap` of a handle: /repo/bss/src/bdd.rs:91-97, /repo/bss/src/zdd.rs:178-184, /repo/mss/src/mdd.rs:114-120,
/repo/mss/src/zmdd.rs:165-177 -/
def rewrap : Prog := .seq c.pin (.ifUp c.g c.maybeGc)

/-- A call of a manager that reads the forest, or changes it, and hands out a handle. -/
def make (p : Prog) : Prog := .seq p c.wrap

/-- `let x = self.parent.upgrade().unwrap(); let y = x.borrow(); ..` -/
def read : Prog := .seq (.need c.d) (.shared c.d .work)

/-- The same with `borrow_mut`, nothing handed out. -/
def readMut : Prog := .seq (.need c.d) (.excl c.d .work)

/-- An operator of a handle: `upgrade`, `borrow_mut` for the engine call, then `rewrap`. -/
def op : Prog := steps [.need c.d, .excl c.d .work, c.rewrap]

end Cells

/-- The manager `n` of a kind. -/
def bddOf (n : Nat) : Cells := ⟨⟨.bdd, n⟩, ⟨.bddGc, n⟩⟩
def zddOf (n : Nat) : Cells := ⟨⟨.zdd, n⟩, ⟨.zddGc, n⟩⟩
def mddOf (n : Nat) : Cells := ⟨⟨.mdd, n⟩, ⟨.mddGc, n⟩⟩
def zmddOf (n : Nat) : Cells := ⟨⟨.zmdd, n⟩, ⟨.zmddGc, n⟩⟩

/-! ## `bss` -/

/-- /repo/bss/src/bdd.rs:194-209 -/
def bddDefvar (c : Cells) : Prog := .alt c.pin (steps [.excl c.d .work, c.pin, c.pin])

/-- /repo/bss/src/bdd.rs:264-334: an operator or constant borrows the forest for its arm; `save`, `load` borrow
nothing and may return; a variable makes a handle that the arm drops. -/
def bddRpn (c : Cells) : Prog :=
  .seq (.star (.alt (.excl c.d .work) (.alt .work (.seq (bddDefvar c) c.unpin)))) (.alt .done c.wrap)

/-- Calls of a `BddMgr`, /repo/bss/src/bdd.rs. -/
def bddMgrCalls (c : Cells) : List Call := [
  ⟨"BddMgr::new 122", .done⟩,
  ⟨"BddMgr::set_gc_threshold 137", .excl c.g .work⟩,
  ⟨"BddMgr::live_node_count 144", .shared c.d .work⟩,
  ⟨"BddMgr::size 157", .shared c.d .work⟩,
  ⟨"BddMgr::gc 168", .seq (.shared c.g .work) (.excl c.d .work)⟩,
  ⟨"BddMgr::zero 177", c.make (.shared c.d .work)⟩,
  ⟨"BddMgr::one 183", c.make (.shared c.d .work)⟩,
  ⟨"BddMgr::create_node 188", c.make (.excl c.d .work)⟩,
  ⟨"BddMgr::defvar 194", bddDefvar c⟩,
  ⟨"BddMgr::get_varorder 211", .shared c.d .work⟩,
  ⟨"BddMgr::rpn 264", bddRpn c⟩,
  ⟨"BddMgr::and 336", c.make (.excl c.d .work)⟩,
  ⟨"BddMgr::or 342", c.make (.excl c.d .work)⟩,
  ⟨"BddMgr::kofn 348", c.make (.excl c.d .work)⟩,
  ⟨"BddMgr::clear_cache 354", .excl c.d .work⟩,
  -- the fields are dropped in order: both cells, then the handles of the variables
  ⟨"BddMgr drop 55-59", .star c.unpin⟩]

/-- Calls of a `BddNode` that work without a forest, /repo/bss/src/bdd.rs. -/
def bddFreeCalls (c : Cells) : List Call := [
  ⟨"BddNode::clone 101", c.pin⟩,
  ⟨"BddNode drop 107", c.unpin⟩,
  ⟨"BddNode::get_id 364", .done⟩,
  ⟨"BddNode::eq 474", .done⟩,
  ⟨"BddPath drop", c.unpin⟩]

/-- Calls of a `BddNode` or its iterator that borrow the forest shared, /repo/bss/src/bdd.rs and bdd_path.rs. -/
def bddReadCalls (c : Cells) : List Call := [
  ⟨"BddNode::get_mgr 360", .need c.d⟩,
  ⟨"BddNode::get_header 368", c.read⟩,
  ⟨"BddNode::get_level 375", c.read⟩,
  ⟨"BddNode::get_label 384", c.read⟩,
  ⟨"BddNode::get_children 393", .seq (.need c.d) (.shared c.d (.seq .work (.alt .done (.seq c.pin c.pin))))⟩,
  ⟨"BddNode::is_zero 408", c.read⟩,
  ⟨"BddNode::is_one 418", c.read⟩,
  ⟨"BddNode::is_undet 428", c.read⟩,
  ⟨"BddNode::dot 438", c.read⟩,
  ⟨"BddNode::size 528", c.read⟩,
  -- bdd_path.rs:51-125; the guard of the `match` lives through its arms
  ⟨"BddPath::next 51", .seq (.need c.d) (.star (.alt .work (.seq (.shared c.d .work) (.shared c.d .work))))⟩]

/-- `bdd_extract` clones the handle before it looks at the forest: /repo/bss/src/bdd.rs:524-526, bdd_path.rs:19-41. -/
def bddExtract (c : Cells) : Prog :=
  steps [c.pin, c.read, .need c.d, .shared c.d .work, .star (.seq (.shared c.d .work) (.shared c.d .work))]

/-- Calls of a `BddNode` that borrow the forest exclusively, /repo/bss/src/bdd.rs and bdd_path.rs. -/
def bddWriteCalls (c : Cells) : List Call := [
  ⟨"BddNode::and 444", c.op⟩,
  ⟨"BddNode::or 450", c.op⟩,
  ⟨"BddNode::xor 456", c.op⟩,
  ⟨"BddNode::not 462", c.op⟩,
  ⟨"BddNode::ite 468", c.op⟩,
  ⟨"BddNode::prob 478", c.readMut⟩,
  ⟨"BddNode::bmeas 493", c.readMut⟩,
  ⟨"BddNode::dual 508", c.op⟩,
  ⟨"BddNode::bdd_count 518", c.readMut⟩,
  ⟨"BddPath::len 43", c.readMut⟩]

/-- /repo/bss/src/zdd.rs:78-94 -/
def zddSingleton (c : Cells) : Prog := steps [.alt .done (.excl c.d .work), .excl c.d .work, c.wrap]

/-- /repo/bss/src/zdd.rs:99-110: an assignment drops the handle it replaces, the end of a round drops `single`, `fam`. -/
def zddFromSets (c : Cells) : Prog :=
  .seq (c.make (.shared c.d .work))
    (.star (steps [c.make (.shared c.d .work), .star (steps [zddSingleton c, c.op, c.unpin, c.unpin]), c.op, c.unpin,
      c.unpin]))

/-- Calls of a `ZddMgr`, /repo/bss/src/zdd.rs. -/
def zddMgrCalls (c : Cells) : List Call := [
  ⟨"ZddMgr::new 54", .done⟩,
  ⟨"ZddMgr::empty 67", c.make (.shared c.d .work)⟩,
  ⟨"ZddMgr::base 72", c.make (.shared c.d .work)⟩,
  ⟨"ZddMgr::singleton 78", zddSingleton c⟩,
  ⟨"ZddMgr::from_sets 99", zddFromSets c⟩,
  ⟨"ZddMgr::set_gc_threshold 125", .excl c.g .work⟩,
  ⟨"ZddMgr::live_node_count 131", .shared c.d .work⟩,
  ⟨"ZddMgr::size 135", .shared c.d .work⟩,
  ⟨"ZddMgr::zero 139", c.make (.shared c.d .work)⟩,
  ⟨"ZddMgr::one 144", c.make (.shared c.d .work)⟩,
  ⟨"ZddMgr::clear_cache 149", .excl c.d .work⟩]

/-- Calls of a `ZddNode` that work without a forest, /repo/bss/src/zdd.rs. -/
def zddFreeCalls (c : Cells) : List Call := [
  ⟨"ZddNode::clone 309", c.pin⟩,
  ⟨"ZddNode drop 315", c.unpin⟩,
  ⟨"ZddNode::get_id 190", .done⟩,
  ⟨"ZddNode::eq 239", .done⟩,
  -- 295-297, zdd_path.rs:24-34
  ⟨"ZddNode::extract 295", c.pin⟩,
  ⟨"ZddPath drop", c.unpin⟩]

/-- Calls of a `ZddNode` or its iterator that borrow the forest shared, /repo/bss/src/zdd.rs and zdd_path.rs. -/
def zddReadCalls (c : Cells) : List Call := [
  ⟨"ZddNode::get_mgr 186", .need c.d⟩,
  ⟨"ZddNode::get_header 194", c.read⟩,
  ⟨"ZddNode::get_level 200", c.read⟩,
  ⟨"ZddNode::get_label 207", c.read⟩,
  ⟨"ZddNode::get_children 214", .seq (.need c.d) (.shared c.d (.seq .work (.alt .done (.seq c.pin c.pin))))⟩,
  ⟨"ZddNode::is_zero 227", c.read⟩,
  ⟨"ZddNode::is_one 233", c.read⟩,
  ⟨"ZddNode::dot 245", c.read⟩,
  ⟨"ZddNode::count 287", c.read⟩,
  ⟨"ZddNode::size 299", c.read⟩,
  ⟨"ZddPath::len 36", c.read⟩,
  -- zdd_path.rs:44-80; the label is read under the guard of the `match`
  ⟨"ZddPath::next 44", .seq (.need c.d) (.star (.alt .work (.shared c.d (.alt .work (.shared c.d .work)))))⟩]

/-- Calls of a `ZddNode` that borrow the forest exclusively, /repo/bss/src/zdd.rs. -/
def zddWriteCalls (c : Cells) : List Call := [
  ⟨"ZddNode::union 252", c.op⟩,
  ⟨"ZddNode::intersect 259", c.op⟩,
  ⟨"ZddNode::setdiff 266", c.op⟩,
  ⟨"ZddNode::product 273", c.op⟩,
  ⟨"ZddNode::divide 280", c.op⟩]

/-- /repo/bss/src/bss.rs:109-127: the forest of the node, the ZDD manager of `self`. -/
def bssMinpath (b z : Cells) : Prog :=
  steps [.need b.d, .excl b.d .work, .alt .done (.seq (.shared b.d (.excl z.d .work)) z.wrap)]

/-- Calls of a `BssMgr` that are its own, /repo/bss/src/bss.rs; `s` is its BDD manager, `z` its ZDD manager, `b` the BDD
manager of the node passed. -/
def bssCalls (s z b : Cells) : List Call := [
  ⟨"BssMgr::clear_cache 93", .seq (.excl s.d .work) (.excl z.d .work)⟩,
  ⟨"BssMgr::minpath 109", bssMinpath b z⟩,
  -- 134-136: the handle of the dual is dropped at the end
  ⟨"BssMgr::mincut 134", steps [b.op, bssMinpath b z, b.unpin]⟩]

/-! ## `mss` -/

/-- /repo/mss/src/mdd.rs:213-228 -/
def mddDefvar (c : Cells) : Prog := .alt c.pin (steps [.excl c.d .work, c.pin, c.pin])

/-- /repo/mss/src/mdd.rs:230-240: `get_header` of every variable's handle, then the header. -/
def mddVarorder (c : Cells) : Prog := .star (.seq c.read (.shared c.d .work))

/-- /repo/mss/src/mdd.rs:297-470 -/
def mddRpn (c : Cells) : Prog :=
  .seq (.star (.alt (.excl c.d .work) (.alt (.shared c.d .work) (.alt .work (.seq (mddDefvar c) c.unpin)))))
    (.alt .done c.wrap)

/-- Calls of an `MddMgr`, /repo/mss/src/mdd.rs. -/
def mddMgrCalls (c : Cells) : List Call := [
  ⟨"MddMgr::new 127", .done⟩,
  ⟨"MddMgr::size 139", .shared c.d .work⟩,
  ⟨"MddMgr::set_gc_threshold 146", .excl c.g .work⟩,
  ⟨"MddMgr::live_node_count 153", .shared c.d .work⟩,
  ⟨"MddMgr::gc 172", .seq (.shared c.g .work) (.excl c.d .work)⟩,
  ⟨"MddMgr::boolean 180", c.make (.shared c.d .work)⟩,
  ⟨"MddMgr::value 192", c.make (.excl c.d .work)⟩,
  ⟨"MddMgr::undet_boolean 197", c.make (.shared c.d .work)⟩,
  ⟨"MddMgr::undet_value 202", c.make (.shared c.d .work)⟩,
  ⟨"MddMgr::create_node 207", c.make (.excl c.d .work)⟩,
  ⟨"MddMgr::defvar 213", mddDefvar c⟩,
  ⟨"MddMgr::get_varorder 230", mddVarorder c⟩,
  ⟨"MddMgr::rpn 297", mddRpn c⟩,
  ⟨"MddMgr::and 472", c.make (.excl c.d .work)⟩,
  ⟨"MddMgr::or 484", c.make (.excl c.d .work)⟩,
  ⟨"MddMgr::min 496", c.make (.excl c.d .work)⟩,
  ⟨"MddMgr::max 508", c.make (.excl c.d .work)⟩,
  ⟨"MddMgr::clear_cache 520", .excl c.d .work⟩,
  ⟨"MddMgr drop 53-57", .star c.unpin⟩]

/-- Calls of an `MddNode` that work without a forest, /repo/mss/src/mdd.rs. -/
def mddFreeCalls (c : Cells) : List Call := [
  ⟨"MddNode::clone 89", c.pin⟩,
  ⟨"MddNode drop 95", c.unpin⟩,
  ⟨"MddNode::get_node 534", .done⟩,
  ⟨"MddNode::get_id 538", .done⟩,
  ⟨"MddNode::get_id2 545", .done⟩,
  ⟨"MddNode::is_boolean 662", .done⟩,
  ⟨"MddNode::is_value 669", .done⟩,
  ⟨"MddPath drop", c.unpin⟩]

/-- Calls of an `MddNode` or its iterator that borrow the forest shared, /repo/mss/src/mdd.rs and mdd_path.rs. -/
def mddReadCalls (c : Cells) : List Call := [
  ⟨"MddNode::get_mgr 530", .need c.d⟩,
  ⟨"MddNode::get_header 552", c.read⟩,
  ⟨"MddNode::get_level 569", c.read⟩,
  ⟨"MddNode::get_label 590", c.read⟩,
  ⟨"MddNode::get_children 611", .seq (.need c.d) (.shared c.d (.seq .work (.star c.pin)))⟩,
  ⟨"MddNode::dot 742", c.read⟩,
  ⟨"MddNode::mdd_count 930", c.read⟩,
  -- 936-938, mdd_path.rs:24-60: the handle is cloned at the end
  ⟨"MddNode::mdd_extract 936", steps [c.read, .need c.d, .shared c.d .work,
    .star (steps [.shared c.d .work, .shared c.d .work, .shared c.d .work]), c.pin]⟩,
  ⟨"MddNode::size 940", c.read⟩,
  ⟨"MddPath::len 62", c.read⟩,
  -- mdd_path.rs:73-187
  ⟨"MddPath::next 73", .seq (.need c.d) (.star (.alt .work (.seq (.shared c.d .work) (.shared c.d .work))))⟩]

/-- Calls of an `MddNode` that look at the forest for one kind of node only: 676-740. -/
def mddHalfCalls (c : Cells) : List Call := [
  ⟨"MddNode::is_zero 676", .alt .done c.read⟩,
  ⟨"MddNode::is_one 693", .alt .done c.read⟩,
  ⟨"MddNode::is_undet 710", .alt .done c.read⟩,
  ⟨"MddNode::value 727", .alt .done c.read⟩]

/-- Calls of an `MddNode` that borrow the forest exclusively, /repo/mss/src/mdd.rs. -/
def mddWriteCalls (c : Cells) : List Call := [
  ⟨"MddNode::add 748", c.op⟩,
  ⟨"MddNode::sub 756", c.op⟩,
  ⟨"MddNode::mul 764", c.op⟩,
  ⟨"MddNode::div 772", c.op⟩,
  ⟨"MddNode::min 780", c.op⟩,
  ⟨"MddNode::max 788", c.op⟩,
  ⟨"MddNode::eq 796", c.op⟩,
  ⟨"MddNode::ne 804", c.op⟩,
  ⟨"MddNode::lt 812", c.op⟩,
  ⟨"MddNode::le 820", c.op⟩,
  ⟨"MddNode::gt 828", c.op⟩,
  ⟨"MddNode::ge 836", c.op⟩,
  ⟨"MddNode::and 844", c.op⟩,
  ⟨"MddNode::or 852", c.op⟩,
  ⟨"MddNode::xor 860", c.op⟩,
  ⟨"MddNode::not 868", c.op⟩,
  ⟨"MddNode::ite 876", c.op⟩,
  ⟨"MddNode::prob 884", c.readMut⟩,
  ⟨"MddNode::bmeas 911", c.readMut⟩]

/-- Calls of a `ZmddMgr`, /repo/mss/src/zmdd.rs. -/
def zmddMgrCalls (c : Cells) : List Call := [
  ⟨"ZmddMgr::new 53", .done⟩,
  ⟨"ZmddMgr::size 108", .shared c.d .work⟩,
  ⟨"ZmddMgr::clear_cache 112", .excl c.d .work⟩]

/-- Calls of a `ZmddNode` that work without a forest, /repo/mss/src/zmdd.rs. -/
def zmddFreeCalls (c : Cells) : List Call := [
  ⟨"ZmddNode::clone 309", c.pin⟩,
  ⟨"ZmddNode drop 321", c.unpin⟩,
  ⟨"ZmddNode::get_id 183", .done⟩,
  ⟨"ZmddNode::is_cut 190", .done⟩,
  ⟨"ZmddNode::vars 196", .done⟩,
  -- 300-302, 389-408
  ⟨"ZmddNode::extract 300", c.pin⟩,
  ⟨"ZmddPath drop", c.unpin⟩]

/-- /repo/mss/src/zmdd.rs:415-457; the label is read under the guard of the `match`. -/
def zmddNext (c : Cells) : Prog :=
  .seq (.need c.d) (.star (.alt .work (.shared c.d (.alt .work (.shared c.d .work)))))

/-- Calls of a `ZmddNode` or its iterator that borrow the forest shared, /repo/mss/src/zmdd.rs. -/
def zmddReadCalls (c : Cells) : List Call := [
  ⟨"ZmddNode::get_mgr 179", .need c.d⟩,
  ⟨"ZmddNode::labels 204", c.read⟩,
  -- 234-255: labels, then a whole iteration
  ⟨"ZmddNode::extract_level 234", steps [c.read, c.pin, .star (zmddNext c), c.unpin, .work]⟩,
  ⟨"ZmddNode::count 273", c.read⟩,
  ⟨"ZmddNode::dot 283", c.read⟩,
  ⟨"ZmddPath::next 415", zmddNext c⟩]

/-- Calls of a `ZmddNode` that borrow the forest exclusively, /repo/mss/src/zmdd.rs. -/
def zmddWriteCalls (c : Cells) : List Call := [
  ⟨"ZmddNode::intersect 258", c.op⟩,
  ⟨"ZmddNode::setdiff 265", c.op⟩]

/-- /repo/mss/src/mss.rs:170-180 and 200-210 with `convert`, `convert_rev` (zmdd.rs:72-106): the forest of the node
(`m`), the MDD manager of `self` (`s`) for the order of the variables, the ZMDD manager of `self` (`z`). -/
def mssSol (s z m : Cells) : Prog :=
  steps [.need m.d, .excl m.d .work, mddVarorder s, .shared m.d .work,
    .alt .done (.seq (.shared m.d (.excl z.d .work)) z.wrap)]

/-- Calls of an `MssMgr` that are its own, /repo/mss/src/mss.rs. -/
def mssCalls (s z m : Cells) : List Call := [
  ⟨"MssMgr::clear_cache 149", .seq (.excl s.d .work) (.excl z.d .work)⟩,
  ⟨"MssMgr::minpath 170", mssSol s z m⟩,
  ⟨"MssMgr::mincut 200", mssSol s z m⟩]

/-! ## All of them -/

/-- Public calls of managers.  The other calls of `BssMgr` (/repo/bss/src/bss.rs:34-91) and `MssMgr`
(/repo/mss/src/mss.rs:66-147) pass on to the calls of their managers.  `a`, `b`, `x`, `y` number the managers
involved. -/
def mgrCalls (a b x : Nat) : List Call :=
  bddMgrCalls (bddOf a) ++ zddMgrCalls (zddOf a) ++ bssCalls (bddOf a) (zddOf b) (bddOf x) ++
  mddMgrCalls (mddOf a) ++ zmddMgrCalls (zmddOf a) ++ mssCalls (mddOf a) (zmddOf b) (mddOf x)

/-- Calls of handles and iterators that borrow no forest. -/
def freeCalls (a : Nat) : List Call :=
  bddFreeCalls (bddOf a) ++ zddFreeCalls (zddOf a) ++ mddFreeCalls (mddOf a) ++ zmddFreeCalls (zmddOf a)

/-- Calls of handles and iterators that borrow their forest shared only; `mdd_extract` and `bdd_extract` included. -/
def readCalls (a : Nat) : List Call :=
  bddReadCalls (bddOf a) ++ [⟨"BddNode::bdd_extract 524", bddExtract (bddOf a)⟩] ++ zddReadCalls (zddOf a) ++
  mddReadCalls (mddOf a) ++ mddHalfCalls (mddOf a) ++ zmddReadCalls (zmddOf a)

/-- Calls of handles and iterators that borrow their forest exclusively. -/
def writeCalls (a : Nat) : List Call :=
  bddWriteCalls (bddOf a) ++ zddWriteCalls (zddOf a) ++ mddWriteCalls (mddOf a) ++ zmddWriteCalls (zmddOf a)

/-- Every public call, with any managers. -/
def IsCall (p : Prog) : Prop :=
  ∃ a b x, ∃ c ∈ mgrCalls a b x ++ freeCalls a ++ readCalls a ++ writeCalls a, c.prog = p

end DD.Borrow
