import Verif.Proofs.Lasso
import Verif.Props.Orders

/-! Four validators of which three wait for each other for ever (used for C54). -/

set_option linter.unusedSectionVars false
set_option linter.unusedVariables false
set_option linter.unusedTactic false
set_option linter.unreachableTactic false
set_option linter.unnecessarySeqFocus false

namespace Overlord.PaceDemo
open Spec Lasso

abbrev C := StDemo.C

/-- Four validators of equal weight; all run the modelled code. -/
def nodes : List Node := StDemo.nodes
def lists : Nat → List Node := fun _ => nodes
def correct : Address → Bool := fun _ => true
/-- Validator 3 crashes, the others are live. -/
def live (a : Address) : Bool := a == [1] || a == [2] || a == [4]
def liveList : List UInt8 := [1, 2, 4]
def blockOf : Hash → Nat × C := fun _ => (10, [5, 5])

/-- Everything works; the block of height 10 is `[5, 5]`, with hash `[5]`. -/
def env (a : UInt8) : Env C :=
  { crypto := StDemo.crypto [a], mode := .rotation, sh := .same, walSave := fun _ => true, walLoad := some none,
    getBlock := fun k => if k = 10 then some ([5, 5], [5]) else none,
    commit := fun h _ => some { height := h + 1, interval := none, timerConfig := none, authorityList := nodes } }
def params : StartParams := { initHeight := 9, interval := 3000, list := nodes, timerConfig := none }
def status10 : Status := { height := 10, interval := none, timerConfig := none, authorityList := nodes }

/-- Steps of a node; timeouts and verifications in order. -/
inductive E where
  | raw (m : OverlordMsg C) | event | resp | verified | vdone | cdone | smr | set | expire | fire | crash | start

def E.to (a : UInt8) : E → NAct C
  | .raw m => .arm (.raw m) (env a) none
  | .event => .arm .event (env a) none
  | .resp => .arm .resp (env a) none
  | .verified => .arm .verified (env a) none
  | .vdone => .verifyDone (StDemo.crypto [a]) 0
  | .cdone => .checkDone 0 true
  | .smr => .smr
  | .set => .set
  | .expire => .expire 0
  | .fire => .fire 0
  | .crash => .crash
  | .start => .start params (env a) none

def toAct (y : UInt8 × E) : Address × NAct C := ([y.1], y.2.to y.1)

def steps (l : List (UInt8 × List E)) : List (UInt8 × E) := l.flatMap fun y => y.2.map fun e => (y.1, e)

/-! ### The messages -/

def dl (m : OverlordMsg C) : List E := [.raw m, .vdone, .verified]
def prop (p : UInt8) (r : Nat) : OverlordMsg C :=
  let x : Proposal C := { height := 10, round := r, content := [5, 5], blockHash := [5], lock := none, proposer := [p] }
  .signedProposal ⟨p :: (encProposal x).getD [], x⟩
def vote (a : UInt8) (r : Nat) (ty : VoteType) : OverlordMsg C := .signedVote (StDemo.vote a 10 r ty [5])
def choke0 (a : UInt8) : OverlordMsg C := .signedChoke (StDemo.choke a 10 0 (.precommitQC mockInitQc))
/-- The prevote certificate of round 1, signed by 1, 3 and 4. -/
def qc1 : AggregatedVote :=
  { signature := ⟨[1, 3, 4].flatMap (fun a => a :: encVote ⟨10, 1, .prevote, [5]⟩), (Authority.update nodes).bitmapOf [[1], [3], [4]]⟩,
    voteType := .prevote, height := 10, round := 1, blockHash := [5], leader := [4] }
def chokeQc (l : List UInt8) : AggregatedChoke :=
  { height := 10, round := 0, signature := l.flatMap (fun a => a :: encHashChoke ⟨10, 0⟩), voters := l.map fun a => [a] }
def choke1 : OverlordMsg C := .signedChoke (StDemo.choke 1 10 1 (.chokeQC (chokeQc [1, 2, 4])))
def choke4 : OverlordMsg C := .signedChoke (StDemo.choke 4 10 1 (.chokeQC (chokeQc [4, 1, 3])))
def choke2 : OverlordMsg C := .signedChoke (StDemo.choke 2 10 2 (.prevoteQC qc1))

/-! ### The schedule -/

/-- Everyone enters round 0 of height 10; validator 3 leads it and proposes; everyone prevotes. -/
def boot : List (UInt8 × E) := steps <|
  [(3, [.start, .set, .raw (.richStatus status10), .verified, .smr, .event, .cdone, .resp, .smr, .event, .set, .set])] ++
  ([1, 2, 4].map fun a => (a, [.start, .set, .raw (.richStatus status10), .verified, .smr, .event, .set])) ++
  ([1, 2, 4].map fun a => (a, dl (prop 3 0) ++ [.cdone, .resp, .smr, .event, .set]))

/-- The votes do not reach validator 3: timeouts lead to precommits for nothing, and to chokes. -/
def brakes : List E :=
  [.expire, .fire, .expire, .fire, .smr, .expire, .fire, .smr, .event, .set, .expire, .fire, .smr, .event, .set]

/-- Validators 4, 1 and 3 get three chokes and enter round 1, validator 2 gets only two so far. Validator 4 leads round 1 and proposes;
validators 1 and 3 prevote; validator 3 crashes; validator 4 makes the prevote certificate and precommits. Validator 1 precommits. Validator 2
gets the certificate: it locks the block, jumps to round 2 and precommits there. Then the other messages arrive, and the timeouts lead to
chokes: of round 1 by validators 1 and 4, of round 2 by validator 2. -/
def rest : List (UInt8 × E) := steps <|
  ([1, 2, 3, 4].map fun a => (a, brakes)) ++
  [(2, dl (choke0 4)),
   (4, dl (choke0 1) ++ dl (choke0 3) ++ [.smr, .event, .cdone, .resp, .smr, .event, .set, .set] ++ dl (choke0 2)),
   (1, dl (choke0 2) ++ dl (choke0 4) ++ [.smr, .event, .set] ++ dl (choke0 3)),
   (3, dl (choke0 4) ++ dl (choke0 1) ++ [.smr, .event, .set]),
   (1, dl (prop 4 1) ++ [.cdone, .resp, .smr, .event, .set]),
   (3, dl (prop 4 1) ++ [.cdone, .resp, .smr, .event, .set, .crash]),
   (4, dl (vote 1 1 .prevote) ++ dl (vote 3 1 .prevote) ++ [.smr, .event, .set]),
   (1, dl (.aggregatedVote qc1) ++ [.smr, .event, .set]),
   (2, dl (prop 4 1) ++ dl (.aggregatedVote qc1) ++ [.smr, .event, .event, .set, .set]),
   (2, dl (choke0 1)),
   (4, dl (vote 1 1 .precommit)),
   (1, dl (vote 2 2 .precommit)),
   (2, [.expire, .fire, .smr, .expire, .fire, .smr, .expire, .fire, .smr, .event, .set]),
   (1, [.expire, .fire, .smr, .expire, .fire, .smr, .expire, .fire, .smr, .expire, .fire, .smr, .event, .set]),
   (4, [.expire, .fire, .smr, .expire, .fire, .smr, .expire, .fire, .smr, .expire, .fire, .smr, .event, .set]),
   (1, dl choke2 ++ [.smr] ++ dl choke4), (2, dl choke1 ++ dl choke4), (4, dl choke1 ++ dl choke2 ++ [.smr])]

/-- From now on: the brake timeouts, the chokes, and their arrival. -/
def cycle : List (UInt8 × E) := steps <|
  ([2, 1, 4].map fun a => (a, [.expire, .fire, .smr, .event, .set])) ++
  [(1, dl choke2 ++ [.smr] ++ dl choke4), (2, dl choke1 ++ dl choke4), (4, dl choke1 ++ dl choke2 ++ [.smr])]

/-! ### Checkers -/

/-- `NetStep` and `OrderStep`, computed. -/
def stepB (N : NetSys C) (y : UInt8 × E) (n' : NodeSys C) : Bool :=
  let n := N.nodes [y.1]
  let x := y.2.to y.1
  inSyncB n x && roundSmallB n x && startOkB [y.1] n x && genuineInputB lists correct N.votes n x &&
  (match y.2 with
  | .raw (.signedProposal sp) => decide (blockOf sp.proposal.blockHash = (sp.proposal.height, sp.proposal.content))
  | _ => true) &&
  n'.st.chokes.qcs.all fun z => decide (z.1 < 2 ^ 64)

def hasB (b : UInt8) (m : OverlordMsg C) (l : List (UInt8 × E)) : Bool :=
  l.any fun z => decide (z.1 = b) && match z.2 with
    | .raw m' => decide (m' = m)
    | _ => false

/-- Live nodes are up; the verification passes; what is sent to live nodes is received later. -/
def liveB (N : NetSys C) (y : UInt8 × E) (tl : List (UInt8 × E)) (n' : NodeSys C) : Bool :=
  (liveList.all fun a => decide ((N.nodes [a]).down = false) && (N.nodes [a]).st.chokes.chokes.all fun z => decide (z.1 + 1 < 2 ^ 64)) &&
  (match y.2 with
  | .vdone =>
    match (N.nodes [y.1]).verifying[0]? with
    | some (m, au) => verifyTask (StDemo.crypto [y.1]) m au
    | none => true
  | _ => true) &&
  (!live [y.1] || (n'.log.drop (N.nodes [y.1]).log.length).all fun z =>
    match z with
    | .broadcast m => liveList.all fun b => decide (b = y.1) || hasB b m tl
    | .transmit t m => liveList.all fun b => decide (b = y.1) || !decide (t = [b]) || hasB b m tl
    | _ => true)

/-- Where the live nodes stand in the end. -/
def roundOf (a : Address) : Nat := if a = [2] then 2 else 1
def stuckB (N : NetSys C) (y : UInt8 × E) (n' : NodeSys C) : Bool :=
  (liveList.all fun a => decide ((N.nodes [a]).st.consensusPower = true ∧ (N.nodes [a]).st.height = 10 ∧ (N.nodes [a]).st.round = roundOf [a] ∧
    (N.nodes [a]).sys.smr.height = 10 ∧ (N.nodes [a]).sys.smr.round = roundOf [a] ∧ (N.nodes [a]).sys.smr.step ≠ .commit)) &&
  (n'.log.drop (N.nodes [y.1]).log.length).all fun z =>
    match z with
    | .commitCall .. => false
    | _ => true

/-- The steps one after the other, if all meet `q`. -/
def walk (q : NetSys C → UInt8 × E → List (UInt8 × E) → NodeSys C → Bool) (tl : List (UInt8 × E)) : NetSys C → List (UInt8 × E) → Option (NetSys C)
  | N, [] => some N
  | N, y :: ys =>
    match N.act [y.1] (y.2.to y.1) with
    | none => none
    | some N' => if q N y (ys ++ tl) (N'.nodes [y.1]) then walk q tl N' ys else none

def q0 (N : NetSys C) (y : UInt8 × E) (_ : List (UInt8 × E)) (n' : NodeSys C) : Bool := stepB N y n'
def q1 (N : NetSys C) (y : UInt8 × E) (tl : List (UInt8 × E)) (n' : NodeSys C) : Bool := stepB N y n' && liveB N y tl n'
def q2 (N : NetSys C) (y : UInt8 × E) (tl : List (UInt8 × E)) (n' : NodeSys C) : Bool := stepB N y n' && liveB N y tl n' && stuckB N y n'

def inRound0B (N : NetSys C) : Bool :=
  liveList.all fun a => decide ((N.nodes [a]).st.consensusPower = true ∧ (N.nodes [a]).st.height = 10 ∧
    (N.nodes [a]).sys.smr.height = 10 ∧ (N.nodes [a]).sys.smr.round = 0 ∧ (N.nodes [a]).sys.smr.step ≠ .commit)

/-- Everything. -/
def checkAll : Bool :=
  match walk q0 [] NetSys.new boot with
  | none => false
  | some N0 => inRound0B N0 &&
    match walk q1 (cycle ++ cycle) N0 rest with
    | none => false
    | some NP =>
      match walk q2 cycle NP cycle with
      | none => false
      | some N1 => [1, 2, 3, 4].all fun a => decide (bare (NP.nodes [a]) = bare (N1.nodes [a]))

theorem checked : checkAll = true := by decide +kernel

/-! ### What was checked -/

theorem walk_sound {q : NetSys C → UInt8 × E → List (UInt8 × E) → NodeSys C → Bool} {tl : List (UInt8 × E)} :
    ∀ (l : List (UInt8 × E)) (N N' : NetSys C), walk q tl N l = some N' → N.run (l.map toAct) = some N' ∧
      ∀ l1 y l2, l = l1 ++ y :: l2 → ∃ M M', N.run (l1.map toAct) = some M ∧ M.act [y.1] (y.2.to y.1) = some M' ∧
        q M y (l2 ++ tl) (M'.nodes [y.1]) = true := by
  intro l
  induction l with
  | nil => intro N N' h; exact ⟨h, fun l1 y l2 h => by simp at h⟩
  | cons z l ih =>
    intro N N' h
    simp only [walk] at h
    split at h
    · cases h
    · rename_i M hM
      split at h
      · rename_i hq
        obtain ⟨h1, h2⟩ := ih M N' h
        refine ⟨by simp only [List.map_cons, toAct, NetSys.run, hM]; exact h1, fun l1 y l2 hl => ?_⟩
        cases l1 with
        | nil => cases hl; exact ⟨N, M, rfl, hM, hq⟩
        | cons w l1 =>
          cases hl
          obtain ⟨K, K', k1, k2, k3⟩ := h2 l1 y l2 rfl
          exact ⟨K, K', by simp only [List.map_cons, toAct, NetSys.run, hM]; exact k1, k2, k3⟩
      · cases h

def pre : List (Address × NAct C) := (boot ++ rest).map toAct
def cyc : List (Address × NAct C) := cycle.map toAct

theorem pre_len : pre.length = boot.length + rest.length := by simp [pre]
theorem cyc_len : cyc.length = cycle.length := by simp [cyc]
theorem full : pre ++ cyc = (boot ++ rest ++ cycle).map toAct := by simp [pre, cyc]

theorem walked : ∃ N0 NP N1, walk q0 [] NetSys.new boot = some N0 ∧ inRound0B N0 = true ∧ walk q1 (cycle ++ cycle) N0 rest = some NP ∧
    walk q2 cycle NP cycle = some N1 ∧ ∀ a ∈ ([1, 2, 3, 4] : List UInt8), bare (NP.nodes [a]) = bare (N1.nodes [a]) := by
  have h := checked
  unfold checkAll at h
  split at h
  · cases h
  · rename_i N0 h0
    rw [Bool.and_eq_true] at h
    obtain ⟨hr, h⟩ := h
    split at h
    · cases h
    · rename_i NP hP
      split at h
      · cases h
      · rename_i N1 h1
        exact ⟨N0, NP, N1, h0, hr, hP, h1, fun a ha => of_decide_eq_true (List.all_eq_true.1 h a ha)⟩

theorem runs : ∃ N0 NP N1, NetSys.new.run (boot.map toAct) = some N0 ∧ NetSys.new.run pre = some NP ∧ NetSys.new.run (pre ++ cyc) = some N1 ∧
    inRound0B N0 = true ∧ ∀ a ∈ ([1, 2, 3, 4] : List UInt8), bare (NP.nodes [a]) = bare (N1.nodes [a]) := by
  obtain ⟨N0, NP, N1, h0, hr, hP, h1, hs⟩ := walked
  have k0 := (walk_sound _ _ _ h0).1
  have kP := (walk_sound _ _ _ hP).1
  have k1 := (walk_sound _ _ _ h1).1
  have eP : NetSys.new.run pre = some NP := by
    unfold pre
    rw [List.map_append, Good.run_append k0]; exact kP
  exact ⟨N0, NP, N1, k0, eP, by rw [Good.run_append eP]; exact k1, hr, hs⟩

/-- A node that takes no step. -/
theorem untouched {a : Address} : ∀ (as : List (Address × NAct C)) (N N' : NetSys C), N.run as = some N' → (∀ y ∈ as, y.1 ≠ a) → N'.nodes a = N.nodes a := by
  intro as
  induction as with
  | nil => intro N N' h _; cases h; rfl
  | cons y as ih =>
    obtain ⟨b, x⟩ := y
    intro N N' h hne
    simp only [NetSys.run] at h
    split at h
    · cases h
    · rename_i M hM
      obtain ⟨n', _, k2⟩ := Good.act_nodes hM
      rw [ih M N' h fun y hy => hne y (List.mem_cons_of_mem _ hy), k2, if_neg (fun hc => hne (b, x) (by simp) hc.symm)]

theorem addrs : ∀ y ∈ boot ++ rest ++ cycle, y.1 ∈ ([1, 2, 3, 4] : List UInt8) := by decide +kernel

theorem lasso_ok : Ok pre cyc := by
  obtain ⟨N0, NP, N1, h0, hP, h1, _, hs⟩ := runs
  have e1 : stAt pre cyc pre.length = NP := by
    have := (run_take h1 pre.length (by omega)).1
    rw [List.take_left' rfl, hP] at this
    exact (Option.some.inj this).symm
  have e2 : stAt pre cyc (pre.length + cyc.length) = N1 := by
    have := (run_take h1 (pre.length + cyc.length) (by omega)).1
    rw [List.take_of_length_le (by simp), h1] at this
    exact (Option.some.inj this).symm
  refine ⟨by simp [cyc, cycle, steps], ⟨N1, h1⟩, ?_⟩
  rw [e1, e2]
  intro a
  by_cases ha : ∃ b ∈ ([1, 2, 3, 4] : List UInt8), a = [b]
  · obtain ⟨b, hb, rfl⟩ := ha
    exact hs b hb
  · have hne : ∀ y ∈ pre ++ cyc, y.1 ≠ a := by
      intro y hy
      rw [full] at hy
      obtain ⟨z, hz, rfl⟩ := List.mem_map.1 hy
      exact fun hc => ha ⟨z.1, addrs z hz, hc.symm⟩
    rw [untouched _ _ _ h1 hne, untouched _ _ _ hP fun y hy => hne y (List.mem_append_left _ hy)]

/-- One moment of the finite part. -/
structure Moment (n : Nat) (y : UInt8 × E) (tl : List (UInt8 × E)) : Prop where
  act : actAt pre cyc n = some (toAct y)
  drop : (pre ++ cyc).drop (n + 1) = tl.map toAct
  step : stepB (stAt pre cyc n) y ((stAt pre cyc (n + 1)).nodes [y.1]) = true
  live : boot.length ≤ n → liveB (stAt pre cyc n) y (tl ++ cycle) ((stAt pre cyc (n + 1)).nodes [y.1]) = true
  stuck : pre.length ≤ n → stuckB (stAt pre cyc n) y ((stAt pre cyc (n + 1)).nodes [y.1]) = true

theorem at_moment {N1 : NetSys C} (h1 : NetSys.new.run (pre ++ cyc) = some N1) {l1 l2 : List (UInt8 × E)} {y : UInt8 × E}
    (hl : boot ++ rest ++ cycle = l1 ++ y :: l2) {M M' : NetSys C} (hM : NetSys.new.run (l1.map toAct) = some M)
    (ha : M.act [y.1] (y.2.to y.1) = some M') :
    actAt pre cyc l1.length = some (toAct y) ∧ (pre ++ cyc).drop (l1.length + 1) = l2.map toAct ∧ stAt pre cyc l1.length = M ∧
      stAt pre cyc (l1.length + 1) = M' := by
  have hf : pre ++ cyc = l1.map toAct ++ toAct y :: l2.map toAct := by rw [full, hl]; simp
  have hlen : pre.length + cyc.length = l1.length + 1 + l2.length := by
    have := congrArg List.length hf
    simpa [Nat.add_assoc, Nat.add_comm 1] using this
  have e1 : actAt pre cyc l1.length = some (toAct y) := by
    rw [actAt_lt (by omega), hf, List.getElem?_append_right (by simp)]
    simp
  have e3 : stAt pre cyc l1.length = M := by
    have := (run_take h1 l1.length (by omega)).1
    rw [hf, List.take_left' (by simp), hM] at this
    exact (Option.some.inj this).symm
  refine ⟨e1, ?_, e3, ?_⟩
  · rw [hf, show l1.map toAct ++ toAct y :: l2.map toAct = (l1.map toAct ++ [toAct y]) ++ l2.map toAct by simp]
    exact List.drop_left' (by simp)
  · have hy : toAct y = ([y.1], y.2.to y.1) := rfl
    rw [hy] at e1
    simp only [stAt, e1, e3, ha, Option.getD_some]

theorem split_at {α} (l : List α) {n : Nat} (h : n < l.length) : ∃ l1 y l2, l = l1 ++ y :: l2 ∧ l1.length = n :=
  ⟨l.take n, l[n], l.drop (n + 1), by rw [← List.drop_eq_getElem_cons h, List.take_append_drop], by simp; omega⟩

theorem moment {n : Nat} (hn : n < pre.length + cyc.length) : ∃ y tl, Moment n y tl := by
  obtain ⟨N0, NP, N1, h0, hr, hP, h1, hs⟩ := walked
  obtain ⟨k0, w0⟩ := walk_sound _ _ _ h0
  obtain ⟨kP, wP⟩ := walk_sound _ _ _ hP
  obtain ⟨k1, w1⟩ := walk_sound _ _ _ h1
  have eP : NetSys.new.run pre = some NP := by
    unfold pre
    rw [List.map_append, Good.run_append k0]; exact kP
  have e1 : NetSys.new.run (pre ++ cyc) = some N1 := by rw [Good.run_append eP]; exact k1
  rw [pre_len, cyc_len] at hn
  by_cases c1 : n < boot.length
  · obtain ⟨l1, y, l2, hl, rfl⟩ := split_at boot c1
    obtain ⟨M, M', m1, m2, m3⟩ := w0 l1 y l2 hl
    obtain ⟨a1, a2, a3, a4⟩ := at_moment e1 (l2 := l2 ++ rest ++ cycle) (by rw [hl]; simp) m1 m2
    exact ⟨y, _, a1, a2, by rw [a3, a4]; exact m3, fun h => by omega, fun h => by rw [pre_len] at h; omega⟩
  · by_cases c2 : n < boot.length + rest.length
    · obtain ⟨l1, y, l2, hl, hlen⟩ := split_at rest (n := n - boot.length) (by omega)
      obtain ⟨M, M', m1, m2, m3⟩ := wP l1 y l2 hl
      have m1' : NetSys.new.run ((boot ++ l1).map toAct) = some M := by rw [List.map_append, Good.run_append k0]; exact m1
      obtain ⟨a1, a2, a3, a4⟩ := at_moment e1 (l1 := boot ++ l1) (l2 := l2 ++ cycle) (by rw [hl]; simp) m1' m2
      rw [List.length_append, show boot.length + l1.length = n by omega] at a1 a2 a3 a4
      simp only [q1, Bool.and_eq_true] at m3
      exact ⟨y, _, a1, a2, by rw [a3, a4]; exact m3.1, fun _ => by rw [a3, a4, List.append_assoc]; exact m3.2,
        fun h => by rw [pre_len] at h; omega⟩
    · obtain ⟨l1, y, l2, hl, hlen⟩ := split_at cycle (n := n - (boot.length + rest.length)) (by omega)
      obtain ⟨M, M', m1, m2, m3⟩ := w1 l1 y l2 hl
      have m1' : NetSys.new.run ((boot ++ rest ++ l1).map toAct) = some M := by
        rw [List.map_append]
        show NetSys.new.run (pre ++ l1.map toAct) = some M
        rw [Good.run_append eP]; exact m1
      obtain ⟨a1, a2, a3, a4⟩ := at_moment e1 (l1 := boot ++ rest ++ l1) (l2 := l2) (by rw [hl]; simp) m1' m2
      rw [List.length_append, List.length_append, show boot.length + rest.length + l1.length = n by omega] at a1 a2 a3 a4
      simp only [q2, Bool.and_eq_true] at m3
      exact ⟨y, _, a1, a2, by rw [a3, a4]; exact m3.1.1, fun _ => by rw [a3, a4]; exact m3.1.2, fun _ => by rw [a3, a4]; exact m3.2⟩

/-! ### The conditions -/

theorem goodLists : GoodLists lists := fun _ => by
  show Distinct nodes ∧ Sized nodes
  constructor <;> simp [Distinct, Sized, nodes, StDemo.nodes]

theorem fewFaulty : FewFaulty lists correct := fun _ => by
  show 3 * weight nodes (fun a => !correct a) ≤ total nodes
  decide +kernel

def leaderP (k r : Nat) : Address := ((Authority.update nodes).getProposer .rotation k r).toOption.getD []

theorem proposer_ok (k r : Nat) : (Authority.update nodes).getProposer .rotation k r = .ok (leaderP k r) := by
  have key : ∀ x, (Authority.update nodes).getProposer .rotation k r ≠ .error x := by
    intro x hx
    simp only [Authority.getProposer, rotationLeaderIndex] at hx
    split at hx
    · rename_i h0; exact absurd h0 (by decide +kernel)
    · simp only [bind, Except.bind] at hx
      split at hx
      · cases hx
      · rename_i hn
        rw [List.getElem?_eq_none_iff] at hn
        have hlen : (Authority.update nodes).address.length = 4 := by decide +kernel
        rw [hlen] at hn
        have := Nat.mod_lt ((k * leaderStride (4 % U32) + r) % U64) (show 0 < 4 % U32 by decide)
        have h4 : 4 % U32 = 4 := by decide
        omega
  unfold leaderP
  cases hg : (Authority.update nodes).getProposer .rotation k r with
  | ok l => rfl
  | error x => exact absurd hg (key x)

theorem leadersExist : LeadersExist lists .rotation leaderP := proposer_ok

theorem env_answers (a : UInt8) : CommitsAnswered (env a) := by
  intro k c st h
  simp only [env, Option.some.injEq] at h
  subst h
  exact ⟨Nat.lt_succ_self k, _, proposer_ok _ _⟩

theorem step_sound {N N' : NetSys C} {y : UInt8 × E} (ha : N.act [y.1] (y.2.to y.1) = some N') (h : stepB N y (N'.nodes [y.1]) = true) :
    NetStep lists correct N [y.1] (y.2.to y.1) ∧ OrderStep blockOf .rotation N [y.1] (y.2.to y.1) := by
  simp only [stepB, Bool.and_eq_true] at h
  obtain ⟨⟨⟨⟨⟨h1, h2⟩, h3⟩, h4⟩, h5⟩, h6⟩ := h
  obtain ⟨a, d⟩ := y
  obtain ⟨n', k1, k2⟩ := Good.act_nodes ha
  have hl : ∀ k c st, (env a).commit k c = some st → st.authorityList = lists st.height := by
    intro k c st hst
    simp only [env, Option.some.injEq] at hst
    subst hst; rfl
  refine ⟨⟨inSyncB_sound h1, roundSmallB_sound h2, startOkB_sound h3, ?_, ?_, ?_, genuineInputB_sound h4⟩, ⟨?_, ?_, ?_, ?_⟩⟩
  · cases d <;> first | exact env_answers _ | trivial
  · cases d <;> first | (intro b; rfl) | trivial
  · cases d <;> first | exact hl | exact ⟨hl, fun _ => rfl⟩ | trivial
  · have hb : ∀ k b h, (env a).getBlock k = some (b, h) → blockOf h = (k, b) := by
      intro k b h hk
      simp only [env] at hk
      split at hk
      · rename_i h0; cases hk; rw [h0]; rfl
      · cases hk
    cases d with
    | raw m =>
      refine ⟨fun sp hx => ?_, hb⟩
      cases hx
      exact of_decide_eq_true h5
    | event => exact ⟨fun sp hx => (by cases hx), hb⟩
    | resp => exact ⟨fun sp hx => (by cases hx), hb⟩
    | verified => exact ⟨fun sp hx => (by cases hx), hb⟩
    | _ => trivial
  · cases d <;> first | trivial | skip
    intro b w hb
    cases hb
  · cases d <;> trivial
  · intro n1 hn r hr
    simp only at k1 k2 hn
    rw [k1] at hn
    cases hn
    rw [k2, if_pos rfl] at h6
    have h6 := List.all_eq_true.1 h6
    unfold ChokeCollector.getQc at hr
    rw [Option.isSome_iff_exists] at hr
    obtain ⟨q, hq⟩ := hr
    exact of_decide_eq_true (h6 _ (AMap.mem_of_get? _ hq))

theorem noStart : ∀ y ∈ cyc, isStart y.2 = false := by
  intro y hy
  obtain ⟨z, hz, rfl⟩ := List.mem_map.1 hy
  have : ∀ z ∈ cycle, isStart (toAct z).2 = false := by decide +kernel
  exact this z hz

/-- The infinite history. -/
noncomputable def σ : NetRun C := run lasso_ok

theorem ok : σ.Ok blockOf lists correct .rotation := by
  refine run_ok lasso_ok (fun n hn a x hx _ => ?_) noStart
  obtain ⟨y, tl, hm⟩ := moment hn
  have h1 := hm.act
  rw [hx] at h1
  cases h1
  exact step_sound ((all lasso_ok n).1 _ _ hx) hm.step

theorem live_mem {a : Address} (h : live a = true) : ∃ b ∈ liveList, a = [b] := by
  simp only [live, Bool.or_eq_true, beq_iff_eq] at h
  rcases h with (rfl | rfl) | rfl
  · exact ⟨1, by simp [liveList], rfl⟩
  · exact ⟨2, by simp [liveList], rfl⟩
  · exact ⟨4, by simp [liveList], rfl⟩

theorem boot_le : boot.length ≤ pre.length := by rw [pre_len]; omega

theorem in_cycle {a : Address} (h : live a = true) : (a, .smr) ∈ cyc ∧ (a, .set) ∈ cyc ∧ (a, .expire 0) ∈ cyc ∧ (a, .fire 0) ∈ cyc ∧
    (∃ e, (a, .arm .event e none) ∈ cyc) ∧ (∃ e, (a, .arm .verified e none) ∈ cyc) ∧ (∃ c, (a, .verifyDone c 0) ∈ cyc) := by
  simp only [live, Bool.or_eq_true, beq_iff_eq] at h
  have m : ∀ y, y ∈ cycle → toAct y ∈ cyc := fun y hy => List.mem_map.2 ⟨y, hy, rfl⟩
  rcases h with (rfl | rfl) | rfl
  · exact ⟨m (1, .smr) (by simp [cycle, steps]), m (1, .set) (by simp [cycle, steps]), m (1, .expire) (by simp [cycle, steps]),
      m (1, .fire) (by simp [cycle, steps]), ⟨_, m (1, .event) (by simp [cycle, steps])⟩, ⟨_, m (1, .verified) (by simp [cycle, steps, dl])⟩,
      ⟨_, m (1, .vdone) (by simp [cycle, steps, dl])⟩⟩
  · exact ⟨m (2, .smr) (by simp [cycle, steps]), m (2, .set) (by simp [cycle, steps]), m (2, .expire) (by simp [cycle, steps]),
      m (2, .fire) (by simp [cycle, steps]), ⟨_, m (2, .event) (by simp [cycle, steps])⟩, ⟨_, m (2, .verified) (by simp [cycle, steps, dl])⟩,
      ⟨_, m (2, .vdone) (by simp [cycle, steps, dl])⟩⟩
  · exact ⟨m (4, .smr) (by simp [cycle, steps]), m (4, .set) (by simp [cycle, steps]), m (4, .expire) (by simp [cycle, steps]),
      m (4, .fire) (by simp [cycle, steps]), ⟨_, m (4, .event) (by simp [cycle, steps])⟩, ⟨_, m (4, .verified) (by simp [cycle, steps, dl])⟩,
      ⟨_, m (4, .vdone) (by simp [cycle, steps, dl])⟩⟩

theorem serves {a : Address} (h : live a = true) : Serves pre cyc boot.length a := by
  have key : ∀ n, boot.length ≤ n → n < pre.length + cyc.length → ((stAt pre cyc n).nodes a).down = false ∧
      ∀ z ∈ ((stAt pre cyc n).nodes a).st.chokes.chokes, z.1 + 1 < 2 ^ 64 := by
    intro n h0 hn
    obtain ⟨y, tl, hm⟩ := moment hn
    have h1 := hm.live h0
    simp only [liveB, Bool.and_eq_true] at h1
    obtain ⟨b, hb, rfl⟩ := live_mem h
    have := List.all_eq_true.1 h1.1.1 b hb
    rw [Bool.and_eq_true] at this
    exact ⟨of_decide_eq_true this.1, fun z hz => of_decide_eq_true (List.all_eq_true.1 this.2 z hz)⟩
  obtain ⟨c1, c2, c3, c4, c5, c6, c7⟩ := in_cycle h
  refine ⟨fun n h0 hn => (key n h0 hn).1, ?_, ?_, ?_, c1, c2, c3, c4, c5, c6, c7⟩
  · intro n r h0 hn hr
    obtain ⟨q, hq⟩ := Option.isSome_iff_exists.1 hr
    exact (key n h0 hn).2 _ (AMap.mem_of_get? _ hq)
  · intro n b e cut h0 hn hx
    obtain ⟨y, tl, hm⟩ := moment hn
    have h1 := hm.act
    rw [hx] at h1
    obtain ⟨c, d⟩ := y
    have : e = env c := by cases d <;> simp [toAct, E.to] at h1 <;> simp [h1]
    subst this
    exact ⟨⟨fun _ => rfl, fun _ => rfl⟩, fun _ _ => rfl⟩
  · intro n h0 hn
    obtain ⟨y, tl, hm⟩ := moment hn
    have h1 := hm.act
    obtain ⟨c, d⟩ := y
    refine ⟨fun i hx => ?_, fun i hx => ?_, fun c' i hx => ?_⟩ <;>
      (rw [hx] at h1; cases d <;> simp [toAct, E.to] at h1 <;> simp [h1])

theorem hasB_sound {b : UInt8} {m : OverlordMsg C} {l : List (UInt8 × E)} (h : hasB b m l = true) : (b, .raw m) ∈ l := by
  obtain ⟨z, hz, h⟩ := List.any_eq_true.1 h
  obtain ⟨c, d⟩ := z
  rw [Bool.and_eq_true] at h
  obtain ⟨h1, h2⟩ := h
  have h1 : c = b := of_decide_eq_true h1
  subst h1
  cases d with
  | raw m' =>
    have h2 : m' = m := of_decide_eq_true h2
    rw [← h2]; exact hz
  | _ => cases h2

theorem delivers : Delivers pre cyc boot.length live := by
  constructor
  · intro n a b m h0 hn ha hb hab hs
    obtain ⟨y, tl, hm⟩ := moment hn
    have h1 := hm.live h0
    simp only [liveB, Bool.and_eq_true] at h1
    obtain ⟨n', k1, k2⟩ := Good.act_nodes ((all lasso_ok n).1 _ _ hm.act)
    by_cases hay : a = [y.1]
    · subst hay
      have h2 := h1.2
      rw [ha] at h2
      simp only [Bool.not_true, Bool.false_or] at h2
      obtain ⟨c, hc, rfl⟩ := live_mem hb
      have hcy : ¬ c = y.1 := fun hc' => hab (by rw [hc'])
      have : hasB c m (tl ++ cycle) = true := by
        rcases hs with hs | hs
        · have := List.all_eq_true.1 h2 _ hs
          have := List.all_eq_true.1 this c hc
          simpa [hcy] using this
        · have := List.all_eq_true.1 h2 _ hs
          have := List.all_eq_true.1 this c hc
          simpa [hcy] using this
      have := hasB_sound this
      refine ⟨env c, ?_⟩
      rw [hm.drop]
      show toAct (c, .raw m) ∈ _
      unfold cyc
      rw [← List.map_append]
      exact List.mem_map.2 ⟨_, this, rfl⟩
    · have : (stAt pre cyc (n + 1)).nodes a = (stAt pre cyc n).nodes a := by
        rw [k2 a, if_neg hay]
      unfold SentTo doneSince at hs
      rw [this] at hs
      simp at hs
  · intro n b c i m au h0 hn hb hx hv
    obtain ⟨y, tl, hm⟩ := moment hn
    have h1 := hm.live h0
    simp only [liveB, Bool.and_eq_true] at h1
    have h2 := hm.act
    rw [hx] at h2
    obtain ⟨d, e⟩ := y
    cases e <;> simp [toAct, E.to] at h2
    obtain ⟨rfl, rfl, rfl⟩ := h2
    have h3 := h1.1.2
    simp only [hv] at h3
    exact h3

theorem stuck {a : Address} (h : live a = true) : ∀ m, pre.length ≤ m → InRound 10 (roundOf a) (σ.node m a) ∧ (σ.node m a).st.round = roundOf a := by
  obtain ⟨b, hb, rfl⟩ := live_mem h
  refine forever lasso_ok (P := fun n => InRound 10 (roundOf [b]) n ∧ n.st.round = roundOf [b]) (fun n l hP => ⟨⟨hP.1.1, hP.1.2, hP.1.3⟩, hP.2⟩) ?_
  intro n h0 hn
  obtain ⟨y, tl, hm⟩ := moment hn
  have h1 := hm.stuck h0
  simp only [stuckB, Bool.and_eq_true] at h1
  obtain ⟨k1, k2, k3, k4, k5, k6⟩ := of_decide_eq_true (List.all_eq_true.1 h1.1 b hb)
  exact ⟨⟨k1, k2, k4, k5, k6⟩, k3⟩

theorem noCommits {a : Address} (h : live a = true) (m : Nat) (hm : pre.length ≤ m) (k : Nat) (c : Commit C) (res : Option Status) :
    .commitCall k c res ∉ doneSince (σ.st pre.length) (σ.st m) a := by
  have := never lasso_ok (a := a) (P := fun y => ∃ k c res, y = .commitCall k c res) (by
    intro n h0 hn z hz hP
    obtain ⟨y, tl, hm⟩ := moment hn
    have h1 := hm.stuck h0
    simp only [stuckB, Bool.and_eq_true] at h1
    obtain ⟨n', k1, k2⟩ := Good.act_nodes ((all lasso_ok n).1 _ _ hm.act)
    obtain ⟨k, c, res, rfl⟩ := hP
    by_cases hay : a = [y.1]
    · subst hay
      have := List.all_eq_true.1 h1.2 _ hz
      simp at this
    · unfold doneSince at hz
      rw [k2 a, if_neg hay] at hz
      simp at hz) (m - pre.length)
  rw [show pre.length + (m - pre.length) = m by omega] at this
  exact fun hc => this _ hc ⟨k, c, res, rfl⟩

theorem node_eq (n : Nat) (a : Address) : σ.node n a = (stAt pre cyc n).nodes a := rfl

theorem inRound0 {a : Address} (h : live a = true) : InRound 10 0 (σ.node boot.length a) := by
  obtain ⟨N0, NP, N1, h0, hP, h1, hr, _⟩ := runs
  have e0 : stAt pre cyc boot.length = N0 := by
    have := (run_take h1 boot.length (by rw [pre_len]; omega)).1
    rw [full, List.append_assoc, List.map_append, List.take_left' (by simp), h0] at this
    exact (Option.some.inj this).symm
  obtain ⟨b, hb, rfl⟩ := live_mem h
  obtain ⟨k1, k2, k3, k4, k5⟩ := of_decide_eq_true (List.all_eq_true.1 hr b hb)
  rw [node_eq, e0]
  exact ⟨k1, k2, k3, k4, k5⟩

theorem many : 2 * (lists 10).length < 3 * ((lists 10).filter fun v => live v.address).length := by decide +kernel

end Overlord.PaceDemo
