import Mathlib.Data.Nat.Notation
import Mathlib.Data.Nat.Log

set_option autoImplicit false

/-!
# Model of `mpc/utils/waksman_net.{h,cc}`: AS-Waksman networks

Positions and columns are naturals (`size_t`, `PermEleType`); a permutation, a vector of destinations, the topology and the routing are functions of the
positions (`std::vector`, `std::unordered_map`) changed point by point; reads and writes outside a vector are therefore not errors of the model, but see the
frame theorems of `Props/Waksman`.  A failed `SPU_ENFORCE` is `none`.  The loop of the routing algorithm and the two recursions have a fuel argument, running
out of fuel is `none`.
-/

namespace Spu.Model.Waksman

/-- point update -/
def upd {α : Type} (f : ℕ → α) (i : ℕ) (x : α) : ℕ → α := fun j => if j = i then x else f j

/-- update of one entry of a table -/
def upd2 {α : Type} (f : ℕ → ℕ → α) (c i : ℕ) (x : α) : ℕ → ℕ → α := fun c' => if c' = c then upd (f c) i x else f c'

/-- `as_waksman_num_columns` — waksman_net.cc:42-44, with `Log2Ceil` — core/bit_utils.h:28-30 -/
def numColumns (n : ℕ) : ℕ := if 1 < n then 2 * Nat.clog 2 n - 1 else 0

/-- `as_waksman_top_height` — waksman_net.cc:49-51 -/
def topHeight (n : ℕ) : ℕ := n / 2

/-- `as_waksman_switch_output` — waksman_net.cc:64-70, and `as_waksman_switch_input` — waksman_net.cc:80-84 -/
def switchOutput (n lo row : ℕ) (top : Bool) : Option ℕ :=
  let rel := row - lo
  if rel % 2 = 0 ∧ rel + 1 < n then some (lo + rel / 2 + (if top then 0 else topHeight n)) else none

/-- `as_waksman_get_canonical_row_idx` — waksman_net.cc:93-98 -/
def canon (lo i : ℕ) : ℕ := (i - lo) / 2 * 2 + lo

/-- `as_waksman_get_switch_setting_from_top_bottom_decision` — waksman_net.cc:111-116 -/
def settingOf (lo i : ℕ) (top : Bool) : Bool := decide (i = canon lo i) ^^ top

/-- `as_waksman_get_top_bottom_decision_from_switch_setting` — waksman_net.cc:128-133 -/
def decisionOf (lo i : ℕ) (setting : Bool) : Bool := decide (canon lo i = i) ^^ setting

/-- `as_waksman_other_output_position` — waksman_net.cc:139-144, and `as_waksman_other_input_position` — waksman_net.cc:150-154 -/
def other (lo i : ℕ) : ℕ := (1 - (i - canon lo i)) + canon lo i

/-! ## Routing -/

/-- `AsWaksmanRouting` — waksman_net.h:183-201: column and canonical row to switch setting -/
abbrev Routing : Type := ℕ → ℕ → Option Bool

/-- the local variables of one level of `as_waksman_route_inner` -/
structure RSt where
  rt : Routing
  np : ℕ → ℕ
  npi : ℕ → ℕ
  routed : ℕ → Bool
  toRoute : ℕ
  maxUn : ℕ
  goLeft : Bool

/-- Search of the next unrouted packet — waksman_net.cc:362-365; `routed` is indexed by position here -/
def findUn (lo : ℕ) (routed : ℕ → Bool) : ℕ → ℕ
  | 0 => 0
  | m + 1 => if lo < m + 1 ∧ routed (m + 1) = true then findUn lo routed m else m + 1

/-- "If switch value has not been assigned, assign it arbitrarily" — waksman_net.cc:283-285 -/
def assign (rt : Routing) (left lsw : ℕ) : Routing :=
  match rt left lsw with
  | some _ => rt
  | none => upd2 rt left lsw (some false)

/-- First half of the loop body: route one packet — waksman_net.cc:279-354; a failed `assert` is `none` -/
def routeOne (left right lo hi : ℕ) (perm inv : ℕ → ℕ) (s : RSt) : Option RSt :=
  let n := hi - lo + 1
  if s.goLeft then
    let x := s.toRoute
    let lsw := canon lo x
    let rt := assign s.rt left lsw
    match rt left lsw with
    | none => none
    | some setting =>
      let top := decisionOf lo x setting
      (switchOutput n lo lsw top).bind fun t =>
        if perm x = hi then
          some { s with rt := rt, np := upd s.np t hi, npi := upd s.npi hi t, routed := upd s.routed x true,
                        toRoute := s.maxUn, goLeft := true }
        else
          let rsw := canon lo (perm x)
          if (rt right rsw).isSome then none else
          (switchOutput n lo rsw top).bind fun t' =>
            some { s with rt := upd2 rt right rsw (some (settingOf lo (perm x) top)), np := upd s.np t t', npi := upd s.npi t' t,
                          routed := upd s.routed x true, toRoute := other lo (perm x), goLeft := false }
  else
    let j := s.toRoute
    let rsw := canon lo j
    let lsw := canon lo (inv j)
    match s.rt right rsw with
    | none => none
    | some setting =>
      let top := decisionOf lo j setting
      (switchOutput n lo rsw top).bind fun t =>
        (switchOutput n lo lsw top).bind fun t' =>
          some { s with rt := upd2 s.rt left lsw (some (settingOf lo (inv j) top)), np := upd s.np t' t, npi := upd s.npi t t',
                        routed := upd s.routed (inv j) true, toRoute := other lo (inv j), goLeft := true }

/-- The loop — waksman_net.cc:274-377 -/
def routeLoop (left right lo hi : ℕ) (perm inv : ℕ → ℕ) : ℕ → RSt → Option RSt
  | 0, _ => none
  | fuel + 1, s =>
    (routeOne left right lo hi perm inv s).bind fun s' =>
      if !s'.goLeft || !(s'.routed s'.toRoute) then routeLoop left right lo hi perm inv fuel s'
      else
        let m := findUn lo s'.routed s'.maxUn
        if m < lo ∨ (m = lo ∧ s'.routed lo = true) then some { s' with maxUn := m }
        else routeLoop left right lo hi perm inv fuel { s' with maxUn := m, toRoute := m, goLeft := true }

/-- Initialisation before the loop — waksman_net.cc:213-272 -/
def routeInit (left right lo hi : ℕ) (perm : ℕ → ℕ) (rt : Routing) : Option RSt :=
  let n := hi - lo + 1
  if n % 2 = 1 then
    if perm hi = hi then
      some ⟨rt, upd id hi hi, upd id hi hi, upd (fun _ => false) hi true, hi - 1, hi - 1, true⟩
    else
      let rsw := canon lo (perm hi)
      (switchOutput n lo rsw false).bind fun t' =>
        some ⟨upd2 rt right rsw (some (settingOf lo (perm hi) false)), upd id hi t', upd id t' hi, upd (fun _ => false) hi true,
          other lo (perm hi), hi - 1, false⟩
  else some ⟨upd2 rt left (hi - 1) (some false), id, id, fun _ => false, hi, hi, true⟩

/-- `as_waksman_route_inner` — waksman_net.cc:170-402 -/
def routeInner : ℕ → ℕ → ℕ → ℕ → ℕ → (ℕ → ℕ) → (ℕ → ℕ) → Routing → Option Routing
  | 0, left, right, _, _, _, _, rt => if left > right then some rt else none
  | fuel + 1, left, right, lo, hi, perm, inv, rt =>
    if left > right then some rt
    else
      let n := hi - lo + 1
      let width := numColumns n
      let build := right - left + 1
      if build < width then none
      else if width < build then routeInner fuel (left + 1) (right - 1) lo hi perm inv rt
      else if n = 2 then
        if (perm lo = lo ∨ perm lo = lo + 1) ∧ (perm (lo + 1) = lo ∨ perm (lo + 1) = lo + 1) ∧ perm lo ≠ perm (lo + 1) then
          some (upd2 rt left lo (some (decide (perm lo ≠ lo))))
        else none
      else
        (routeInit left right lo hi perm rt).bind fun s0 =>
          (routeLoop left right lo hi perm inv (2 * n + 2) s0).bind fun s =>
            let rt1 := if n % 2 = 0 then upd2 s.rt left (hi - 1) none else s.rt
            let d := topHeight n
            (routeInner fuel (left + 1) (right - 1) lo (lo + d - 1) s.np s.npi rt1).bind fun rt2 =>
              routeInner fuel (left + 1) (right - 1) (lo + d) hi s.np s.npi rt2

/-- `IntegerPermutation::inverse` — waksman_net.h:111-120 -/
def inverse (n : ℕ) (perm : ℕ → ℕ) : ℕ → ℕ := (List.range n).foldl (fun inv i => upd inv (perm i) i) id

/-- `get_as_waksman_routing` — waksman_net.cc:542-553 -/
def getRouting (n : ℕ) (perm : ℕ → ℕ) : Option Routing :=
  if n < 2 then none  -- `width - 1` wraps around
  else
    let width := numColumns n
    routeInner width 0 (width - 1) 0 (n - 1) perm (inverse n perm) fun _ _ => none

/-! ## Topology -/

/-- `AsWaksmanTopology` — waksman_net.h:157-181: column and row to the next rows for "straight" and "cross" -/
abbrev Topology : Type := ℕ → ℕ → ℤ × ℤ

/-- Straight edges on both sides — waksman_net.cc:435-440 -/
def straightEdges (left right lo : ℕ) (dests : ℕ → ℤ) : ℕ → Topology → Topology
  | 0, nb => nb
  | k + 1, nb =>
    let nb := straightEdges left right lo dests k nb
    upd2 (upd2 nb left (lo + k) ((lo + k : ℕ), (lo + k : ℕ))) right (lo + k) (dests k, dests k)

/-- One column of switches on either side and the destinations for the inner networks — waksman_net.cc:467-485; `k` switches -/
def switches (left right lo n : ℕ) (dests : ℕ → ℤ) : ℕ → (ℕ → ℤ) × Topology → Option ((ℕ → ℤ) × Topology)
  | 0, s => some s
  | k + 1, s =>
    (switches left right lo n dests k s).bind fun (nd, nb) =>
      let row := lo + 2 * k
      (switchOutput n lo row true).bind fun a =>
        (switchOutput n lo row false).bind fun b =>
          let nb := upd2 nb left row ((a : ℤ), (b : ℤ))
          let nb := upd2 nb left (row + 1) ((b : ℤ), (a : ℤ))
          let nd := upd (upd nd (a - lo) (row : ℤ)) (b - lo) ((row + 1 : ℕ) : ℤ)
          let nb := upd2 nb right row (dests (row - lo), dests (row + 1 - lo))
          let nb := upd2 nb right (row + 1) (dests (row + 1 - lo), dests (row - lo))
          some (nd, nb)

/-- The two columns of a level, with the wire without switch or the fixed switch — waksman_net.cc:458-505 -/
def sides (left right lo hi : ℕ) (dests : ℕ → ℤ) (nb : Topology) : Option ((ℕ → ℤ) × Topology) :=
  let n := hi - lo + 1
  (switches left right lo n dests (n / 2) ((fun _ => -1), nb)).bind fun (nd, nb) =>
    if n % 2 = 1 then
      some (upd nd (hi - lo) (hi : ℤ), upd2 (upd2 nb left hi ((hi : ℤ), (hi : ℤ))) right hi (dests (hi - lo), dests (hi - lo)))
    else
      let nb := upd2 nb left (hi - 1) ((nb left (hi - 1)).1, (nb left (hi - 1)).1)
      some (nd, upd2 nb left hi ((nb left hi).1, (nb left hi).1))

/-- `construct_as_waksman_inner` — waksman_net.cc:417-518; `dests` are the destinations relative to `lo` -/
def construct : ℕ → ℕ → ℕ → ℕ → ℕ → (ℕ → ℤ) → Topology → Option Topology
  | 0, left, right, _, _, _, nb => if left > right then some nb else none
  | fuel + 1, left, right, lo, hi, dests, nb =>
    if left > right then some nb
    else
      let n := hi - lo + 1
      let width := numColumns n
      if right - left + 1 < width then none
      else if width < right - left + 1 then
        construct fuel (left + 1) (right - 1) lo hi (fun k => ((lo + k : ℕ) : ℤ)) (straightEdges left right lo dests n nb)
      else if n = 2 then
        some (upd2 (upd2 nb left lo (dests 0, dests 1)) left hi (dests 1, dests 0))
      else
        (sides left right lo hi dests nb).bind fun (nd, nb) =>
          let d := topHeight n
          (construct fuel (left + 1) (right - 1) lo (lo + d - 1) nd nb).bind fun nb =>
            construct fuel (left + 1) (right - 1) (lo + d) hi (fun k => nd (d + k)) nb

/-- `generate_as_waksman_topology` — waksman_net.cc:522-540 -/
def topology (n : ℕ) : Option Topology :=
  if n ≤ 1 then none
  else
    let width := numColumns n
    construct width 0 (width - 1) 0 (n - 1) (fun k => (k : ℤ)) fun _ _ => (-1, -1)

end Spu.Model.Waksman
