import Verif.Spec.Progress
import Verif.Proofs.NodePace
import Verif.Props.Orders

/-! Infinite histories of a network: what is known at each moment (used for C54). -/

set_option linter.unusedSimpArgs false
set_option linter.unusedVariables false
set_option linter.unusedSectionVars false

namespace Overlord.Pace
open Spec M Rdy

variable {T : Type} [ContentCodec T] [DecidableEq T]

/-! ## The past as a schedule -/

/-- The steps before moment `n`. -/
def past (σ : NetRun T) : Nat → List (Address × NAct T)
  | 0 => []
  | n + 1 => past σ n ++ (σ.act n).toList

theorem past_run (σ : NetRun T) : ∀ n, NetSys.new.run (past σ n) = some (σ.st n) := by
  intro n
  induction n with
  | zero => rw [σ.start]; rfl
  | succ n ih =>
    unfold past
    rw [Good.run_append ih]
    cases h : σ.act n with
    | none => rw [σ.idle n h]; rfl
    | some p =>
      obtain ⟨a, x⟩ := p
      simp [NetSys.run, σ.next n a x h]

theorem alongNet_snoc {ok : NetSys T → Address → NAct T → Prop} : ∀ {as : List (Address × NAct T)} {N N' : NetSys T} {a : Address} {x : NAct T},
    AlongNet ok N as → N.run as = some N' → ok N' a x → AlongNet ok N (as ++ [(a, x)]) := by
  intro as
  induction as with
  | nil => intro N N' a x _ hr h; cases hr; exact ⟨h, fun _ _ => trivial⟩
  | cons y as ih =>
    obtain ⟨b, y⟩ := y
    intro N N' a x h hr hx
    refine ⟨h.1, fun N1 h1 => ?_⟩
    simp only [NetSys.run, h1] at hr
    exact ih (h.2 N1 h1) hr hx

section
variable {f : Hash → Nat × T} {lists : Nat → List Node} {correct : Address → Bool} {mode : LeaderMode} {leader : Nat → Nat → Address}

theorem past_ok {σ : NetRun T} (ok : σ.Ok f lists correct mode) : ∀ n, OrderSchedule f lists correct mode (past σ n) := by
  intro n
  induction n with
  | zero => trivial
  | succ n ih =>
    unfold past
    cases h : σ.act n with
    | none => simpa using ih
    | some p =>
      obtain ⟨a, x⟩ := p
      exact alongNet_snoc ih (past_run σ n) (fun hc => ok n a x h hc)

/-- Node `a` at two moments in a row. -/
theorem node_step (σ : NetRun T) (n : Nat) (a : Address) :
    (∃ x, σ.act n = some (a, x) ∧ (σ.node n a).act a x = some (σ.node (n + 1) a)) ∨
    ((∀ x, σ.act n ≠ some (a, x)) ∧ σ.node (n + 1) a = σ.node n a) := by
  cases h : σ.act n with
  | none => right; exact ⟨by simp, by unfold NetRun.node; rw [σ.idle n h]⟩
  | some p =>
    obtain ⟨b, x⟩ := p
    obtain ⟨n', h1, h2⟩ := Good.act_nodes (σ.next n b x h)
    by_cases hab : a = b
    · subst hab
      left
      refine ⟨x, rfl, ?_⟩
      unfold NetRun.node
      rw [h1, h2 a, if_pos rfl]
    · right
      refine ⟨?_, ?_⟩
      · intro y hy; cases hy; exact hab rfl
      · unfold NetRun.node; rw [h2 a, if_neg hab]

/-- What is known about a correct node that is up. -/
structure Facts (f : Hash → Nat × T) (lists : Nat → List Node) (correct : Address → Bool) (leader : Nat → Nat → Address) (N : NetSys T) (a : Address) : Prop where
  ready : NetReady f lists correct N
  ord : NodeOrd leader (N.nodes a)
  nt : NT (N.nodes a)

theorem facts (hE : Encodes T) (hgl : GoodLists lists) (few : FewFaulty lists correct) (hL : LeadersExist lists mode leader) {σ : NetRun T}
    (ok : σ.Ok f lists correct mode) {a : Address} (hc : correct a = true) (n : Nat) (hd : (σ.node n a).down = false) :
    Facts f lists correct leader (σ.st n) a := by
  obtain ⟨h1, h2⟩ := net_orders (leader := leader) hE hgl few hL (past_run σ n) (past_ok ok n)
  refine ⟨h1, h2 a hc hd, nt_run (net_steps a _ _ _ (past_run σ n)) ?_ hd⟩
  refine net_along a _ _ _ (past_run σ n) ?_
  exact alongNet_mono (fun N b x h hba => by subst hba; exact (h hc).1.start) _ _ (past_ok ok n)

/-! ## One step of a node that stays up -/

/-- What a step does to a node that is up before and after it. -/
inductive View (n n' : NodeSys T) : NAct T → Prop
  | arm (b : Arm T) (e : Env T) (i : Input T) (n1 : NodeSys T) (ht : n.take b = some (i, n1))
      (hn : n' = n1.took none (runArm i e ⟨n.st, []⟩)) : View n n' (.arm b e none)
  | smr (t : SMRTrigger) (q : List SMRTrigger) (hq : n.sys.trigQ = t :: q) (hs : n.sys.act .smr = some n'.sys)
      (h1 : n'.st = n.st) (h2 : n'.stQ = n.stQ ++ (n.sys.smr.onTrigger t).outs.filterMap Out.toState)
      (h3 : n'.sys.smr = (n.sys.smr.onTrigger t).next) (h4 : n'.sys.trigQ = q) (h5 : n'.verifiedQ = n.verifiedQ) (h6 : n'.verifying = n.verifying)
      (h7 : n'.log = n.log) : View n n' .smr
  | time (x : NAct T) (a : TAct) (hs : n.sys.act a = some n'.sys)
      (hx : (x = .set ∧ a = .set) ∨ (∃ i, x = .expire i ∧ a = .expire i) ∨ (∃ i, x = .fire i ∧ a = .fire i))
      (h1 : n'.st = n.st) (h2 : n'.stQ = n.stQ) (h3 : n'.sys.smr = n.sys.smr) (h4 : ∃ ts, n'.sys.trigQ = n.sys.trigQ ++ ts)
      (h5 : n'.verifiedQ = n.verifiedQ) (h6 : n'.verifying = n.verifying) (h7 : n'.log = n.log) : View n n' x
  | verifyDone (c : Crypto) (i : Nat) (m : OverlordMsg T) (au : Authority) (hm : n.verifying[i]? = some (m, au))
      (hn : n' = { n with verifying := n.verifying.eraseIdx i, verifiedQ := n.verifiedQ ++ if verifyTask c m au then [m] else [] }) : View n n' (.verifyDone c i)
  | checkDone (i : Nat) (b : Bool) (h0 : n'.sys = n.sys) (h1 : n'.st = n.st) (h2 : n'.stQ = n.stQ) (h5 : n'.verifiedQ = n.verifiedQ)
      (h6 : n'.verifying = n.verifying) (h7 : n'.log = n.log) : View n n' (.checkDone i b)

theorem view {a : Address} {n n' : NodeSys T} {x : NAct T} (hd : n.down = false) (hd' : n'.down = false) (h : n.act a x = some n') : View n n' x := by
  cases x with
  | start p e cut => simp [NodeSys.act, hd] at h
  | crash => cases h; cases hd'
  | arm b e cut =>
    simp only [NodeSys.act, hd, Bool.false_eq_true, if_false] at h
    split at h
    · cases h
    · rename_i i n1 ht
      cases h
      obtain ⟨rfl, hr⟩ := took_up hd'
      exact .arm b e i n1 ht rfl
  | verifyDone c j =>
    simp only [NodeSys.act, hd, Bool.false_eq_true, if_false] at h
    split at h
    · cases h
    · rename_i m au hm
      cases h
      exact .verifyDone c j m au hm (by rw [hd])
  | checkDone j b =>
    simp only [NodeSys.act, hd, Bool.false_eq_true, if_false] at h
    split at h
    · cases h
    · cases h; exact .checkDone j b rfl rfl rfl rfl rfl rfl
  | smr =>
    simp only [NodeSys.act, hd, Bool.false_eq_true, if_false] at h
    split at h
    · cases h
    · rename_i t q hq
      split at h
      · cases h
      · rename_i sys hs
        cases h
        obtain ⟨t', q', hq', he⟩ := smr_act_eq hs
        rw [hq] at hq'; cases hq'
        exact .smr t q hq hs rfl rfl (by rw [he]) (by rw [he]) rfl rfl rfl
  | set =>
    simp only [NodeSys.act, hd, Bool.false_eq_true, if_false, Option.map_eq_some_iff] at h
    obtain ⟨sys, hs, rfl⟩ := h
    obtain ⟨_, _, _, he⟩ := set_act_eq hs
    exact .time _ _ hs (.inl ⟨rfl, rfl⟩) rfl rfl (by rw [he]) ⟨[], by rw [he]; simp⟩ rfl rfl rfl
  | expire j =>
    simp only [NodeSys.act, hd, Bool.false_eq_true, if_false, Option.map_eq_some_iff] at h
    obtain ⟨sys, hs, rfl⟩ := h
    obtain ⟨_, _, he⟩ := expire_act_eq hs
    exact .time _ _ hs (.inr (.inl ⟨j, rfl, rfl⟩)) rfl rfl (by rw [he]) ⟨[], by rw [he]; simp⟩ rfl rfl rfl
  | fire j =>
    simp only [NodeSys.act, hd, Bool.false_eq_true, if_false, Option.map_eq_some_iff] at h
    obtain ⟨sys, hs, rfl⟩ := h
    obtain ⟨_, _, he⟩ := fire_act_eq hs
    exact .time _ _ hs (.inr (.inr ⟨j, rfl, rfl⟩)) rfl rfl (by rw [he]) ⟨_, by rw [he]⟩ rfl rfl rfl

end

end Overlord.Pace
