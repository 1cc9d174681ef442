import Verif.Proofs.Api
import Verif.Proofs.StateDemo
import Verif.Spec.Node

/-!
# The public object (C57)
-/

set_option linter.unusedVariables false

namespace Overlord
open Spec ApiP

variable {T : Type} [ContentCodec T] [DecidableEq T]

/-- **C57.** Messages accepted by `send_msg` are taken up by the node at most once and in the order in which they were accepted, also those sent before `run`; as long as
`run` has not ended, the ones not yet taken up are still in the channel, none is lost and none is invented. -/
theorem C57_in_order_once (addr : Address) (n0 : NodeSys T) (cs : List (Call T)) (a : Api T) (h : List (Call T × Ret T))
    (hc : (Api.new addr n0).calls addr cs = some (a, h)) :
    received h <+: accepted h ∧ (¬ RunEnded h a → accepted h = received h ++ a.queue) := by
  have I := inv_hist hc
  by_cases h0 : starts h = 0
  · obtain ⟨_, _, _, h4, h5, _⟩ := I.before h0
    rw [h4, h5]; exact ⟨List.nil_prefix, fun _ => rfl⟩
  · obtain ⟨h1, _, h3, h4, h5⟩ := I.after h0
    refine ⟨h5, fun hn => h4 ?_⟩
    rw [h3]
    cases hd : a.node.down with
    | false => rfl
    | true => exact absurd ⟨h1, hd⟩ hn

/-- **C57.** `send_msg` can be called at any time, before, during and after `run`; it returns `Ok` until `run` has ended and `Err` afterwards; `get_handler` always works. -/
theorem C57_send_result (addr : Address) (n0 : NodeSys T) (cs : List (Call T)) (a : Api T) (h : List (Call T × Ret T))
    (hc : (Api.new addr n0).calls addr cs = some (a, h)) (m : OverlordMsg T) :
    (∃ b r, a.act addr (.send m) = some (b, r) ∧ (r = .ok ∨ r = .channelErr) ∧ (r = .channelErr ↔ RunEnded h a)) ∧
    a.act addr .getHandler = some (a, .handler) := by
  have I := inv_hist hc
  by_cases h0 : starts h = 0
  · obtain ⟨h1, h2, _⟩ := I.before h0
    refine ⟨⟨{ a with queue := a.queue ++ [m] }, .ok, by simp [Api.act, h2], .inl rfl, ?_⟩, by simp [Api.act, h1, full]⟩
    simp [RunEnded, h0]
  · obtain ⟨h1, h2, h3, _⟩ := I.after h0
    refine ⟨?_, by simp [Api.act, h2, gone]⟩
    cases hd : a.node.down with
    | false => exact ⟨{ a with queue := a.queue ++ [m] }, .ok, by simp [Api.act, h3, hd], .inl rfl, by simp [RunEnded, hd]⟩
    | true => exact ⟨a, .channelErr, by simp [Api.act, h3, hd], .inr rfl, by simp [RunEnded, hd, h1]⟩

/-- **C57.** `run` goes through at most once; a second call, during the first or after it, panics and changes nothing. -/
theorem C57_run_once (addr : Address) (n0 : NodeSys T) (cs : List (Call T)) (a : Api T) (h : List (Call T × Ret T))
    (hc : (Api.new addr n0).calls addr cs = some (a, h)) :
    starts h ≤ 1 ∧ ∀ p e cut, (starts h = 1 → a.act addr (.run p e cut) = some (a, .panicked)) ∧
      (starts h = 0 → n0.down = true → ∃ b, a.act addr (.run p e cut) = some (b, .started)) := by
  have I := inv_hist hc
  refine ⟨?_, fun p e cut => ⟨fun h1 => ?_, fun h0 hd => ?_⟩⟩
  · by_cases h0 : starts h = 0
    · omega
    · exact Nat.le_of_eq (I.after h0).1
  · obtain ⟨_, h2, _⟩ := I.after (by omega)
    simp only [Api.act, h2, takeAll_gone, ne_eq, not_true_eq_false, if_false]
    rw [← h2]
  · obtain ⟨h1, h2, h3, _⟩ := I.before h0
    simp only [Api.act, h1, takeAll_full, h3]
    have : ∃ n, n0.act addr (.start p e cut) = some n := by
      simp only [NodeSys.act, hd, if_true]
      split <;> exact ⟨_, rfl⟩
    obtain ⟨n, hn⟩ := this
    rw [hn]; exact ⟨_, rfl⟩

/-- **C57.** While the node runs and its loop goes on taking messages from the channel, every accepted message is taken up. -/
theorem C57_nothing_lost (addr : Address) (n0 : NodeSys T) (R : ApiRun T addr) (h0 : R.st 0 = Api.new addr n0)
    (up : ∀ i, ¬ RunEnded (R.upto i) (R.st i)) (fair : ∀ i, (R.st i).queue ≠ [] → ∃ j ≥ i, ∃ e cut, R.call j = .take e cut) (i : Nat) :
    ∃ j ≥ i, accepted (R.upto i) <+: received (R.upto j) := by
  -- what is accepted only grows
  have mono : ∀ k, accepted (R.upto i) <+: accepted (R.upto (i + k)) := by
    intro k
    induction k with
    | zero => exact List.prefix_rfl
    | succ k ih => rw [← Nat.add_assoc, upto_succ, accepted_snoc]; exact ih.trans (List.prefix_append _ _)
  have eq : ∀ k, accepted (R.upto k) = received (R.upto k) ++ (R.st k).queue := by
    intro k
    have I := inv_run R h0 k
    by_cases hs : starts (R.upto k) = 0
    · obtain ⟨_, _, _, h4, h5, _⟩ := I.before hs
      rw [h4, h5]; rfl
    · obtain ⟨h1, _, h3, h4, _⟩ := I.after hs
      refine h4 ?_
      rw [h3]
      cases hd : (R.st k).node.down with
      | false => rfl
      | true => exact absurd ⟨h1, hd⟩ (up k)
  have rmono : ∀ k, received (R.upto k) <+: received (R.upto (k + 1)) := by
    intro k; rw [upto_succ, received_snoc]; exact List.prefix_append _ _
  have rmono' : ∀ a b, a ≤ b → received (R.upto a) <+: received (R.upto b) := by
    intro a b hab
    obtain ⟨d, rfl⟩ := Nat.exists_eq_add_of_le hab
    clear hab
    induction d with
    | zero => exact List.prefix_rfl
    | succ d ih => exact ih.trans (rmono _)
  -- the number of received messages reaches any number not above that of the accepted ones
  have reach : ∀ k, k ≤ (accepted (R.upto i)).length → ∃ j ≥ i, k ≤ (received (R.upto j)).length := by
    intro k
    induction k with
    | zero => intro _; exact ⟨i, Nat.le_refl _, Nat.zero_le _⟩
    | succ k ih =>
      intro hk
      obtain ⟨j, hj, hkj⟩ := ih (by omega)
      by_cases hm : k + 1 ≤ (received (R.upto j)).length
      · exact ⟨j, hj, hm⟩
      · obtain ⟨d, rfl⟩ := Nat.exists_eq_add_of_le hj
        have hl := (mono d).length_le
        rw [eq (i + d), List.length_append] at hl
        have hq : (R.st (i + d)).queue ≠ [] := by
          intro hq; rw [hq] at hl; simp only [List.length_nil] at hl; omega
        obtain ⟨j', hj', e, cut, hcall⟩ := fair _ hq
        refine ⟨j' + 1, by omega, ?_⟩
        have hn := R.next j'
        rw [hcall] at hn
        rw [upto_succ, received_snoc, List.length_append]
        have hle := (rmono' _ _ hj').length_le
        have h1 : (received [(R.call j', R.ret j')]).length = 1 := by
          simp only [Api.act] at hn
          split at hn
          · cases hn
          split at hn
          · cases hn
          split at hn
          · cases hn
          simp only [Option.some.injEq, Prod.mk.injEq] at hn
          rw [← hn.2]; rfl
        omega
  obtain ⟨j, hj, hl⟩ := reach _ (Nat.le_refl _)
  refine ⟨j, hj, ?_⟩
  obtain ⟨d, rfl⟩ := Nat.exists_eq_add_of_le hj
  exact List.prefix_of_prefix_length_le (mono d) (by rw [eq (i + d)]; exact List.prefix_append _ _) hl

/-- **C57.** What a node does behind the handlers' channel is one of the histories that all other theorems about nodes are about, with the accepted messages as input;
the other way round, every such history with one start is the history of an object. -/
theorem C57_same_histories (addr : Address) (n0 : NodeSys T) :
    (∀ cs a h, (Api.new addr n0).calls addr cs = some (a, h) → n0.run addr (nodeSteps h) = some a.node ∧
      ∀ m e cut, NAct.arm (.raw m) e cut ∈ nodeSteps h → m ∈ accepted h) ∧
    (∀ p e cut as n, (∀ x ∈ as, ∀ p e cut, x ≠ .start p e cut) → n0.run addr (.start p e cut :: as) = some n →
      ∃ cs a h, (Api.new addr n0).calls addr cs = some (a, h) ∧ a.node = n ∧ nodeSteps h = .start p e cut :: as) := by
  refine ⟨fun cs a h hc => ⟨(inv_hist hc).runs, fun m e cut hm => ?_⟩, fun p e cut as n hs h => make_life hs h⟩
  refine (C57_in_order_once addr n0 cs a h hc).1.subset ?_
  simp only [nodeSteps, List.mem_filterMap] at hm
  obtain ⟨⟨c, r⟩, hm, he⟩ := hm
  refine List.mem_filterMap.2 ⟨(c, r), hm, ?_⟩
  have hi : ∀ x : NAct T, (Call.inner x, Ret.done) ∈ h → x.isInner = true := by
    intro x hx
    exact inner_of_mem cs _ hc hx
  cases c <;> cases r <;> simp only [reduceCtorEq, Option.some.injEq, NAct.arm.injEq, Arm.raw.injEq] at he ⊢
  · exact he.1
  · subst he
    have := hi _ hm
    simp [NAct.isInner] at this

/-! ### Examples -/

namespace StDemo

def apiParams : StartParams := { initHeight := 7, interval := 3000, list := nodes, timerConfig := none }
def sentFirst : OverlordMsg C := .signedProposal (prop 2 7 0 [5, 5] [5])
def outdated : OverlordMsg C := .signedVote (vote 2 6 0 .prevote [5])

/-- A proposal is sent before `run`; `run` is called twice; the proposal is taken up first; `Stop` ends the run; a later `send_msg` fails. -/
def apiCalls : List (Call C) :=
  [.getHandler, .send sentFirst, .run apiParams env none, .send outdated, .run apiParams env none, .take env none, .inner (.verifyDone (crypto [1]) 0),
   .send .stop, .take env none, .inner (.arm .verified env none), .inner .smr, .inner (.arm .event env none), .send outdated, .take env none, .send sentFirst, .getHandler]

def apiRets : List (Ret C) :=
  [.handler, .ok, .started, .ok, .panicked, .took sentFirst, .done, .ok, .took outdated, .done, .done, .done, .ok, .took .stop, .channelErr, .handler]

example : ((Api.new [1] (NodeSys.new [1])).calls [1] apiCalls).map (fun x => (x.2.map Prod.snd, x.1.queue, x.1.node.down, (votesOf x.1.node.log).length)) =
    some (apiRets, [], true, 1) := by decide +kernel

/-- The object just after `run`. -/
def running : Api C := match (Api.new [1] (NodeSys.new [1])).act [1] (.run apiParams env none) with
  | some x => x.1
  | none => Api.new [1] (NodeSys.new [1])

/-- An endless history: an outdated vote is sent and taken up again and again. -/
def apiRun : ApiRun C [1] where
  st := fun i => match i with
    | 0 => Api.new [1] (NodeSys.new [1])
    | i + 1 => if i % 2 = 0 then running else { running with queue := [outdated] }
  call := fun i => match i with
    | 0 => .run apiParams env none
    | i + 1 => if i % 2 = 0 then .send outdated else .take env none
  ret := fun i => match i with
    | 0 => .started
    | i + 1 => if i % 2 = 0 then .ok else .took outdated
  next := by
    intro i
    have h1 : (Api.new [1] (NodeSys.new [1])).act [1] (.run apiParams env none) = some (running, .started) := by decide +kernel
    have h2 : running.act [1] (.send outdated) = some ({ running with queue := [outdated] }, .ok) := by decide +kernel
    have h3 : ({ running with queue := [outdated] } : Api C).act [1] (.take env none) = some (running, .took outdated) := by decide +kernel
    cases i with
    | zero => exact h1
    | succ i =>
      by_cases hi : i % 2 = 0
      · have hj : (i + 1) % 2 ≠ 0 := by omega
        simp only [hi, hj, if_true, if_false]; exact h2
      · have hj : (i + 1) % 2 = 0 := by omega
        simp only [hi, hj, if_true, if_false]; exact h3

/-- The hypotheses of `C57_nothing_lost` hold, and infinitely many messages are accepted. -/
example : (∀ i, ¬ RunEnded (apiRun.upto i) (apiRun.st i)) ∧ (∀ i, (apiRun.st i).queue ≠ [] → ∃ j ≥ i, ∃ e cut, apiRun.call j = .take e cut) ∧
    ∀ i, ∃ j ≥ i, apiRun.call j = .send outdated ∧ apiRun.ret j = .ok := by
  have hup : running.node.down = false := by decide +kernel
  refine ⟨fun i h => ?_, fun i h => ?_, fun i => ?_⟩
  · cases i with
    | zero => exact absurd h.1 (by decide)
    | succ i =>
      have h2 : (apiRun.st (i + 1)).node.down = true := h.2
      have h3 : (apiRun.st (i + 1)).node = running.node := by
        show (if i % 2 = 0 then running else { running with queue := [outdated] }).node = _
        split <;> rfl
      rw [h3, hup] at h2; cases h2
  · refine ⟨2 * i + 2, by omega, env, none, ?_⟩
    show (if (2 * i + 1) % 2 = 0 then Call.send outdated else Call.take env none) = _
    rw [if_neg (by omega)]
  · refine ⟨2 * i + 1, by omega, ?_, ?_⟩
    · show (if (2 * i) % 2 = 0 then Call.send outdated else Call.take env none) = _
      rw [if_pos (by omega)]
    · show (if (2 * i) % 2 = 0 then Ret.ok else Ret.took outdated) = _
      rw [if_pos (by omega)]

end StDemo

end Overlord
