import Verif.NodeManager

/-!
# The managers a program can construct (`libteddy/core.hpp`, `libteddy/reliability.hpp`)

`bdd_manager`, `mdd_manager`, `imdd_manager`, `ifmdd_manager` and their counterparts for reliability analysis
`bss_manager`, `mss_manager`, `imss_manager`, `ifmss_manager`, which have the same constructors (the type of the data
stored in a node makes no difference to construction).  Each class has a constructor with the size of additional node
pools and one without.
-/

namespace Teddy

/-- What the program does not choose: whether assertions are checked, the hash functions (they depend on addresses) and
the order of addresses. -/
structure Surroundings where
  asserts : Bool
  hash : List Ptr → Nat
  chash : Nat → Ptr → Ptr → Nat
  addr : Ptr → Nat

/-- diagram_manager.hpp:1967-1983 `default_or_fwd`: without an order the variables are ordered by their indices. -/
def defaultOr (n : Nat) (order : List Nat) : List Nat := if order.isEmpty then List.range n else order

/-- The configuration of a manager with `domains::fixed<M>`. -/
def fixedCfg (env : Surroundings) (M n extra : Nat) : Cfg where
  n := n
  dom := fun _ => M
  fixedDom := some M
  asserts := env.asserts
  extra := extra
  hash := env.hash
  chash := env.chash
  addr := env.addr

/-- The configuration of a manager with `domains::mixed`. -/
def mixedCfg (env : Surroundings) (doms : List Nat) (n extra : Nat) : Cfg where
  n := n
  dom := fun i => doms.getD i 0
  fixedDom := none
  asserts := env.asserts
  extra := extra
  hash := env.hash
  chash := env.chash
  addr := env.addr

/-- A configuration and the new manager. -/
def withCfg (c : Cfg) (pool : Nat) (order : List Nat) : Except Err (Cfg × Mgr) :=
  match construct c pool (defaultOr c.n order) with
  | .ok m => .ok (c, m)
  | .error e => .error e

/-- diagram_manager.hpp:1986-2002 and node_manager.hpp:283-300: the constructor for `domains::fixed<M>`. -/
def newFixed (env : Surroundings) (M n pool extra : Nat) (order : List Nat) : Except Err (Cfg × Mgr) :=
  withCfg (fixedCfg env M n extra) pool order

/-- diagram_manager.hpp:2004-2022 and node_manager.hpp:302-320, 352-363: the constructor for `domains::mixed`; `degree` is
`some M` for `degrees::fixed<M>`, `none` for `degrees::mixed`.  Without assertions a list of domains that is too short
is read beyond its end (388, 400).  A domain above the degree is then accepted, and a node of that variable
would write beyond its array of sons; here the constructor reports it already. -/
def newMixed (env : Surroundings) (degree : Option Nat) (doms : List Nat) (n pool extra : Nat) (order : List Nat) :
    Except Err (Cfg × Mgr) :=
  let short := decide (doms.length < n)
  let wide := match degree with
    | some M => doms.any fun d => decide (M < d)
    | none => false
  if env.asserts && (decide (doms.length ≠ n) || wide) then .error .assertion
  else if short || wide then .error .outOfRange
  else withCfg (mixedCfg env doms n extra) pool order

/-- core.hpp:185-212 `bdd_manager`, reliability.hpp:169-196 `bss_manager`.  `overflow` is `none` for the constructor without
`overflowNodePoolSize` (193: half of the first pool). -/
def bddManager (env : Surroundings) (n pool : Nat) (overflow : Option Nat) (order : List Nat) : Except Err (Cfg × Mgr) :=
  newFixed env 2 n pool (overflow.getD (pool / 2)) order

/-- core.hpp:214-243 `mdd_manager<M>`, reliability.hpp:198-227 `mss_manager<M>`. -/
def mddManager (env : Surroundings) (M n pool : Nat) (overflow : Option Nat) (order : List Nat) : Except Err (Cfg × Mgr) :=
  newFixed env M n pool (overflow.getD (pool / 2)) order

/-- core.hpp:245-276 `imdd_manager`, reliability.hpp:229-260 `imss_manager`. -/
def imddManager (env : Surroundings) (n pool : Nat) (overflow : Option Nat) (doms order : List Nat) : Except Err (Cfg × Mgr) :=
  newMixed env none doms n pool (overflow.getD (pool / 2)) order

/-- core.hpp:278-312 `ifmdd_manager<M>`, reliability.hpp:262-295 `ifmss_manager<M>`. -/
def ifmddManager (env : Surroundings) (M n pool : Nat) (overflow : Option Nat) (doms order : List Nat) :
    Except Err (Cfg × Mgr) :=
  newMixed env (some M) doms n pool (overflow.getD (pool / 2)) order

end Teddy
