import Verif.Spec.Check
import Verif.Proofs.Prov
import Verif.Props.Node4

/-!
# C50: no unchecked block is precommitted or committed
-/

set_option linter.unusedSimpArgs false
set_option linter.unusedVariables false
set_option linter.unusedTactic false
set_option linter.unusedSectionVars false

namespace Overlord
open Spec

variable {T : Type} [ContentCodec T] [DecidableEq T]

/-- What is known about a hash that was reported as checked. -/
def Since (addr : Address) (as : List (NAct T)) (h : Hash) : Prop := ∃ k c, CheckedSince addr as k h c

theorem Since.snoc {addr : Address} {as : List (NAct T)} {a : NAct T} {h : Hash} (hn : ∀ p e cut, a ≠ .start p e cut)
    (hc : Since addr as h) : Since addr (as ++ [a]) h := by
  obtain ⟨k, c, as1, i, as2, n, r, h1, h2, h3⟩ := hc
  refine ⟨k, c, as1, i, as2 ++ [a], n, r, by simp [h1], ?_, h3⟩
  intro p e cut hm
  rcases List.mem_append.1 hm with hm | hm
  · exact h2 p e cut hm
  · exact hn p e cut (List.mem_singleton.1 hm).symm

/-- Only checked blocks are in the channels between State and voting state machine. -/
def checkPreds (Ch : Hash → Prop) : Preds T where
  st := fun s => VotesOk s.votes ∧ ∀ h, s.isFullTransaction.get? h = some true → Ch h
  smr := fun _ => True
  trig := fun t => t.triggerType = .prevoteQC ∨ t.triggerType = .precommitQC → t.hash ≠ [] → Ch t.hash
  ev := fun ev => (∀ k r x lr, ev = .precommitVote k r x lr → x ≠ [] → Ch x) ∧ ∀ x, ev = .commit x → Ch x
  msg := fun _ => True
  ver := fun _ _ => True
  chk := fun _ _ _ _ => True
  resp := fun r => Ch r.blockHash

theorem checkPreds_micro {Ch : Hash → Prop} {e : Env T} {i : Input T} {s s' : State T} {eff : List (Effect T)}
    (hi : ∀ r, i = .resp r → Ch r.blockHash) (h : (checkPreds Ch).st s) (hm : Micro e i s eff s') :
    (checkPreds Ch).st s' ∧ ∀ x ∈ eff, (checkPreds (T := T) Ch).eff x := by
  obtain ⟨h1, h2⟩ := h
  have hv := votesOk_micro h1 hm
  refine ⟨⟨hv, ?_⟩, ?_⟩
  · cases hm with
    | checked r hi' hh =>
      intro x hx
      simp only [AMap.get?_insert] at hx
      split at hx
      · next he => rw [← he]; exact hi r hi'
      · exact h2 x hx
    | _ => exact h2
  · intro x hx
    cases hm with
    | trigQcId r ty qc hq hf =>
      simp only [List.mem_singleton] at hx
      subst hx
      intro _ hne
      simp only [stTrigger] at hne ⊢
      unfold State.tryGetFullTxs at hf
      simp only [hne, if_false] at hf
      split at hf
      · rename_i b hb; rw [hf] at hb; exact h2 _ hb
      · cases hf
    | trigQcHash k ty qc hi' hq hr =>
      simp only [List.mem_singleton] at hx
      subst hx
      intro _ hne
      obtain ⟨r, e1, e2, _⟩ := hi'
      simp only [stTrigger] at hne ⊢
      rw [(h1.byHash _ _ _ _ hq).2.1, ← e2]
      exact hi r e1
    | chokeQuorum =>
      simp only [List.mem_singleton] at hx
      subst hx; intro h; simp [stTrigger] at h
    | recvChokeQc =>
      simp only [List.mem_singleton] at hx
      subst hx; intro h; simp [stTrigger] at h
    | walLost =>
      simp only [List.mem_singleton] at hx
      subst hx; intro h; simp [stTrigger, walTrig] at h
    | walTrigger =>
      simp only [List.mem_singleton] at hx
      subst hx; intro h; simp [stTrigger, walTrig] at h
    | stop =>
      simp only [List.mem_singleton] at hx
      subst hx; intro h; simp [stTrigger] at h
    | acceptProposal =>
      simp only [List.mem_cons, List.not_mem_nil, or_false] at hx
      rcases hx with rfl | rfl
      · intro h; simp [stTrigger] at h
      · trivial
    | propose =>
      simp only [List.mem_cons, List.not_mem_nil, or_false] at hx
      rcases hx with rfl | rfl | rfl
      · trivial
      · intro h; simp [stTrigger] at h
      · trivial
    | adopt status =>
      simp only [List.cons_append, List.mem_cons, List.mem_append, List.mem_map, List.not_mem_nil, or_false] at hx
      rcases hx with rfl | ⟨m, _, rfl⟩ | rfl
      · trivial
      · trivial
      · intro h; simp [stTrigger] at h
    | enterRound => split at hx <;> simp at hx; subst hx; trivial
    | castVote => simp only [List.mem_cons, List.not_mem_nil, or_false] at hx; rcases hx with rfl | rfl
                  · trivial
                  · split <;> trivial
    | genQc => simp only [List.mem_singleton] at hx; subst hx; trivial
    | wal => simp only [List.mem_singleton] at hx; subst hx; trivial
    | askBlock => simp only [List.mem_singleton] at hx; subst hx; trivial
    | ownBlock => simp only [List.mem_singleton] at hx; subst hx; trivial
    | castChoke => simp only [List.mem_cons, List.not_mem_nil, or_false] at hx; rcases hx with rfl | rfl <;> trivial
    | commitLost => simp only [List.mem_singleton] at hx; subst hx; trivial
    | commit => simp only [List.mem_cons, List.not_mem_nil, or_false] at hx; rcases hx with rfl | rfl <;> trivial
    | moveLost => simp only [List.mem_singleton] at hx; subst hx; trivial
    | forward => simp only [List.mem_singleton] at hx; subst hx; trivial
    | verify => simp only [List.mem_singleton] at hx; subst hx; trivial
    | _ => cases hx

theorem checkPreds_arm {Ch : Hash → Prop} {e : Env T} {i : Input T} {s : State T} (hi : ∀ r, i = .resp r → Ch r.blockHash)
    (h : (checkPreds Ch).st s) :
    (checkPreds Ch).st (runArm i e ⟨s, []⟩).2.st ∧ ∀ y ∈ (runArm i e ⟨s, []⟩).2.log, (checkPreds (T := T) Ch).eff y := by
  refine arm_inv (e := e) (i := i) (s := s) (P := fun w => (checkPreds Ch).st w.st ∧ ∀ y ∈ w.log, (checkPreds (T := T) Ch).eff y)
    ⟨h, by simp⟩ ?_
  rintro w eff s' ⟨h1, h2⟩ hm
  obtain ⟨g1, g2⟩ := checkPreds_micro hi h1 hm
  refine ⟨g1, fun y hy => ?_⟩
  rcases List.mem_append.1 hy with hy | hy
  · exact h2 y hy
  · exact g2 y hy

theorem checkPreds_smr {Ch : Hash → Prop} (m : Smr) (t : SMRTrigger)
    (ht : t.triggerType = .prevoteQC ∨ t.triggerType = .precommitQC → t.hash ≠ [] → Ch t.hash) :
    ∀ ev ∈ (m.onTrigger t).outs.filterMap Out.toState, (checkPreds (T := T) Ch).ev ev := by
  intro ev hev
  obtain ⟨o, ho, he⟩ := List.mem_filterMap.1 hev
  refine ⟨fun k r x lr hx hne => ?_, fun x hx => ?_⟩
  · have hv : (⟨.precommit, k, r, x⟩ : OVote) ∈ votesIn (m.onTrigger t) := by
      refine List.mem_filterMap.2 ⟨o, ho, ?_⟩
      cases o with
      | both e => simp only [Out.toState, Option.some.injEq] at he; subst he; subst hx; rfl
      | timerOnly e => cases he
    obtain ⟨h1, _, h2, _⟩ := C04_precommit_justified m t _ hv rfl hne
    simp only at h2
    rw [← h2]; exact ht (.inl h1) (by rw [h2]; exact hne)
  · have hc : x ∈ commitsIn (m.onTrigger t) := by subst hx; exact commit_mem_outs hev
    obtain ⟨h1, _, h2, h3, _⟩ := C05_commit_needs_precommit_quorum m t x hc
    rw [← h2]; exact ht (.inr h1) (by rw [h2]; exact h3)

theorem checkPreds_run {addr : Address} {as : List (NAct T)} {n : NodeSys T} (hrun : (NodeSys.new addr).run addr as = some n) :
    n.down = false → (checkPreds (Since addr as)).Holds n := by
  refine life_inv (P := fun as n => n.down = false → (checkPreds (Since addr as)).Holds n) (by simp [NodeSys.new, NodeSys.fresh]) ?_ as n hrun
  intro as n a n' hrun ih ha
  have arm0 : ∀ {e : Env T} {i : Input T} {s : State T}, _ := @checkPreds_arm T _ _ (Since addr (as ++ [a]))
  by_cases hst : ∃ p e cut, a = .start p e cut
  · -- a start: nothing is known from before
    obtain ⟨p, e, cut, rfl⟩ := hst
    refine Preds.act (P := checkPreds (Since addr (as ++ [.start p e cut]))) (fun hd => ?_) ha (fun _ _ _ _ h => by cases h) (fun _ _ _ _ h => by cases h)
      (fun _ _ _ _ _ h => by cases h) (fun m t _ ht => ⟨trivial, checkPreds_smr m t ht⟩)
      (fun ty k r _ h => absurd rfl h) ?_
    · obtain ⟨hd', _⟩ := start_act ha
      rw [hd] at hd'; cases hd'
    · intro p' e' cut' heq
      refine ⟨trivial, arm0 (fun r hr => by cases hr) ⟨VotesOk.new, fun h hg => ?_⟩⟩
      simp [State.new, AMap.get?] at hg
  · have hn : ∀ p e cut, a ≠ .start p e cut := fun p e cut h => hst ⟨p, e, cut, h⟩
    have up : ∀ x, Since addr as x → Since addr (as ++ [a]) x := fun x h => h.snoc hn
    refine Preds.act (P := checkPreds (Since addr (as ++ [a]))) (fun hd => ?_) ha ?_ (fun _ _ _ _ _ _ _ _ => trivial)
      ?_ (fun m t _ ht => ⟨trivial, checkPreds_smr m t ht⟩)
      (fun ty k r _ h => absurd rfl h) (fun p e cut h => absurd h (hn p e cut))
    · exact (ih hd).mono (fun s h => ⟨h.1, fun x hx => up _ (h.2 x hx)⟩) (fun _ h => h) (fun t h a b => up _ (h a b))
        (fun e h => ⟨fun k r x lr a b => up _ (h.1 k r x lr a b), fun x a => up _ (h.2 x a)⟩) (fun _ h => h) (fun _ _ h => h)
        (fun _ _ _ _ h => h) (fun r h => up _ h)
    · intro x e cut i _ hin hs
      refine arm0 (fun r hr => ?_) hs
      subst hr
      exact hin.2
    · intro i k r x b ha' hm _
      subst ha'
      exact ⟨k, b, as, i, [], n, r, rfl, by simp, hrun, hm⟩

/-- **C50, precommits.** Whatever arrives and however the node was crashed and restarted: when a precommit for a block leaves
the node, its own application's `check_block` has succeeded for that block's hash since the node's last start. (`l` are the effects
of the step that releases the vote.) No assumption on messages, storage or schedule. -/
theorem C50_precommit_after_check (addr : Address) (as : List (NAct T)) (a : NAct T) (n n' : NodeSys T)
    (hr : (NodeSys.new addr).run addr as = some n) (ha : n.act addr a = some n') (l : List (Effect T)) (hl : n'.log = n.log ++ l)
    (v : SignedVote) (hv : v ∈ votesOf l) (hty : v.vote.voteType = .precommit) (hne : v.vote.blockHash ≠ []) :
    ∃ k c, CheckedSince addr as k v.vote.blockHash c := by
  rcases act_log ha with ⟨h, _⟩ | ⟨i, e, cut, s, h, _, hcase⟩
  · rw [hl] at h
    have : l = [] := by simpa using h
    subst this; cases hv
  · have hl' : l = cutTo cut (runArm i e ⟨s, []⟩).2.log := by rw [hl] at h; exact List.append_cancel_left h
    obtain ⟨x, hx, hrel⟩ := List.mem_filterMap.1 hv
    have hx' : x ∈ (runArm i e ⟨s, []⟩).2.log := by rw [hl'] at hx; exact cut_mem hx
    obtain ⟨s1, eff, s2, -, hm, hxe⟩ := arm_effect (P := fun _ => True) trivial (fun _ _ _ _ _ => trivial) hx'
    have key : ∃ k r x lr, i = .event (.precommitVote k r x lr) ∧ v.vote.blockHash = x := by
      cases hm with
      | castVote ty hash lr lock sv hsv hi hlk hvv =>
        have hsv : sv = v := by
          simp only [List.mem_cons, List.not_mem_nil, or_false] at hxe
          rcases hxe with rfl | rfl
          · simp [releasedVote] at hrel
          · split at hrel <;> simp [releasedVote] at hrel <;> exact hrel
        subst hsv
        rw [hvv] at hty
        simp only at hty
        subst hty
        obtain ⟨k, r, hi⟩ := hi
        exact ⟨k, r, hash, lr, hi, by rw [hvv]⟩
      | enterRound => exfalso; split at hxe <;> simp at hxe; subst hxe; simp [releasedVote] at hrel
      | _ =>
        exfalso
        (simp only [List.cons_append, List.mem_cons, List.mem_append, List.mem_map, List.not_mem_nil, or_false] at hxe) <;>
        first
          | (cases hxe; done)
          | (subst hxe; simp [releasedVote] at hrel; done)
          | (rcases hxe with rfl | rfl <;> simp [releasedVote] at hrel; done)
          | (rcases hxe with rfl | rfl | rfl <;> simp [releasedVote] at hrel; done)
          | (rcases hxe with rfl | ⟨m, _, rfl⟩ | rfl <;> simp [releasedVote] at hrel; done)
    obtain ⟨k, r, y, lr, rfl, hy⟩ := key
    rcases hcase with ⟨hd, _, _, x, n1, htk, _⟩ | ⟨_, h, _⟩
    · have := (Preds.take (checkPreds_run hr hd) htk).1.2
      have := this.1 k r y lr rfl (by rw [← hy]; exact hne)
      rw [hy]; exact this
    · cases h

/-- **C50, commits.** The same for the blocks passed to `commit()`, except for those that a starting node passes again from its
storage. -/
theorem C50_commit_after_check (addr : Address) (as : List (NAct T)) (a : NAct T) (n n' : NodeSys T)
    (hr : (NodeSys.new addr).run addr as = some n) (ha : n.act addr a = some n') (hns : ∀ p e cut, a ≠ .start p e cut)
    (l : List (Effect T)) (hl : n'.log = n.log ++ l)
    (k : Nat) (c : Commit T) (res : Option Status) (hc : .commitCall k c res ∈ l) :
    ∃ k c', CheckedSince addr as k c.proof.blockHash c' := by
  rcases act_log ha with ⟨h, _⟩ | ⟨i, e, cut, s, h, _, hcase⟩
  · rw [hl] at h
    have : l = [] := by simpa using h
    subst this; cases hc
  · have hl' : l = cutTo cut (runArm i e ⟨s, []⟩).2.log := by rw [hl] at h; exact List.append_cancel_left h
    have hx' : .commitCall k c res ∈ (runArm i e ⟨s, []⟩).2.log := by rw [hl'] at hc; exact cut_mem hc
    obtain ⟨s1, eff, s2, -, hm, hxe⟩ := arm_effect (P := fun _ => True) trivial (fun _ _ _ _ _ => trivial) hx'
    have key : i = .start ∨ i = .event (.commit c.proof.blockHash) := by
      cases hm with
      | commit hash content qc hsv hi hb hq cc hcc =>
        simp only [List.mem_cons, reduceCtorEq, Effect.commitCall.injEq, List.not_mem_nil, or_false, false_or] at hxe
        obtain ⟨_, rfl, _⟩ := hxe
        rw [hcc]
        exact hi.symm
      | enterRound => exfalso; split at hxe <;> simp at hxe
      | castVote => exfalso; split at hxe <;> simp at hxe
      | _ => exfalso; simp at hxe
    rcases hcase with ⟨hd, _, hne, x, n1, htk, _⟩ | ⟨_, _, p, h, _⟩
    · rcases key with h | h
      · exact absurd h hne
      · subst h
        have := (Preds.take (checkPreds_run hr hd) htk).1.2
        exact this.2 _ rfl
    · exact absurd h (hns _ _ _)

theorem run_app {addr : Address} : ∀ (as : List (NAct T)) {n n1 : NodeSys T} {bs : List (NAct T)}, n.run addr as = some n1 →
    n.run addr (as ++ bs) = n1.run addr bs := by
  intro as
  induction as with
  | nil => intro n n1 bs h; simp only [NodeSys.run, Option.some.injEq] at h; subst h; rfl
  | cons a as ih =>
    intro n n1 bs h
    simp only [List.cons_append, NodeSys.run] at h ⊢
    cases ha : n.act addr a with
    | none => simp [ha] at h
    | some n2 => simp only [ha] at h ⊢; exact ih h

/-- **C50, with content.** If a hash stands for one height and content `f` and saving and loading work, the check was of this very
block: its content, at its height. -/
theorem C50_check_was_of_this_block (f : Hash → Nat × T) (addr : Address) (as : List (NAct T)) (n : NodeSys T)
    (hr : (NodeSys.new addr).run addr as = some n)
    (h1 : Along (HashFixes f) addr (NodeSys.new addr) as) (h2 : Along SavesWork addr (NodeSys.new addr) as)
    (h3 : Along LoadsSaved addr (NodeSys.new addr) as)
    (k : Nat) (h : Hash) (c : T) (hc : CheckedSince addr as k h c) : f h = (k, c) := by
  obtain ⟨as1, i, as2, n1, r, e1, _, e2, e3⟩ := hc
  have hd : n1.down = false := by
    subst e1
    rw [run_app _ e2] at hr
    simp only [NodeSys.run, NodeSys.act] at hr
    cases hdn : n1.down
    · rfl
    · simp [hdn] at hr
  obtain ⟨_, g⟩ := check_inv (f := f) e2 (fun bs a bs' n2 e4 e5 => by
    have e : as = bs ++ a :: (bs' ++ .checkDone i true :: as2) := by rw [e1, e4]; simp
    exact ⟨along_split bs (e ▸ h1) e5, along_split bs (e ▸ h2) e5, along_split bs (e ▸ h3) e5⟩)
  exact (g hd).checking _ _ _ _ (List.mem_of_getElem? e3)

/-! Non-vacuity: a node checks the proposed block, gets a prevote certificate for it and precommits; later it commits. -/

namespace StDemo

/-- Up to the certificate for the checked block. -/
def checkedUpTo (ty : VoteType) : List (NAct C) :=
  [.start params envQuiet none] ++ deliverQ (.signedProposal (prop 2 7 0 [5, 5] [5])) ++
  [.smr, .arm .event envQuiet none, .checkDone 0 true, .arm .resp envQuiet none] ++
  deliverQ (.aggregatedVote (cert [2, 3, 4] 7 0 ty [5])) ++ [.smr]

/-- Without the answer of the application, the certificates stay without effect. -/
def unchecked (ty : VoteType) : List (NAct C) :=
  [.start params envQuiet none] ++ deliverQ (.signedProposal (prop 2 7 0 [5, 5] [5])) ++
  [.smr, .arm .event envQuiet none] ++ deliverQ (.aggregatedVote (cert [2, 3, 4] 7 0 ty [5]))

end StDemo

example : ∃ n n' l v, (NodeSys.new [1]).run [1] (StDemo.checkedUpTo .prevote) = some n ∧
    n.act [1] (.arm .event StDemo.envQuiet none) = some n' ∧ n'.log = n.log ++ l ∧ v ∈ votesOf l ∧ v.vote = ⟨7, 0, .precommit, [5]⟩ := by
  have hd : (match (NodeSys.new [1]).run [1] (StDemo.checkedUpTo .prevote) with
      | some n => (match n.act [1] (.arm .event StDemo.envQuiet none) with
        | some n' => decide ((votesOf (n'.log.drop n.log.length)).map (·.vote) = [⟨7, 0, .precommit, [5]⟩] ∧
            n'.log.take n.log.length = n.log)
        | none => false)
      | none => false) = true := by decide +kernel
  split at hd
  · rename_i n hn
    split at hd
    · rename_i n' hn'
      obtain ⟨h1, h2⟩ := of_decide_eq_true hd
      have hm : (⟨7, 0, .precommit, [5]⟩ : Vote) ∈ (votesOf (n'.log.drop n.log.length)).map (·.vote) := by rw [h1]; simp
      obtain ⟨v, hv, he⟩ := List.mem_map.1 hm
      refine ⟨n, n', n'.log.drop n.log.length, v, hn, hn', ?_, hv, he⟩
      conv => lhs; rw [← List.take_append_drop n.log.length n'.log, h2]
    · cases hd
  · cases hd

example : ∃ n n' l k c res, (NodeSys.new [1]).run [1] (StDemo.checkedUpTo .precommit) = some n ∧
    n.act [1] (.arm .event StDemo.envQuiet none) = some n' ∧ n'.log = n.log ++ l ∧ .commitCall k c res ∈ l ∧ c.proof.blockHash = [5] := by
  have hd : (match (NodeSys.new [1]).run [1] (StDemo.checkedUpTo .precommit) with
      | some n => (match n.act [1] (.arm .event StDemo.envQuiet none) with
        | some n' => decide ((commitsAt (n'.log.drop n.log.length)).map (·.2.proof.blockHash) = [[5]] ∧
            n'.log.take n.log.length = n.log)
        | none => false)
      | none => false) = true := by decide +kernel
  split at hd
  · rename_i n hn
    split at hd
    · rename_i n' hn'
      obtain ⟨h1, h2⟩ := of_decide_eq_true hd
      have hm : ([5] : Hash) ∈ (commitsAt (n'.log.drop n.log.length)).map (·.2.proof.blockHash) := by rw [h1]; simp
      obtain ⟨v, hv, he⟩ := List.mem_map.1 hm
      obtain ⟨x, hx, he'⟩ := List.mem_filterMap.1 hv
      cases x <;> simp at he'
      refine ⟨n, n', n'.log.drop n.log.length, _, _, _, hn, hn', ?_, hx, ?_⟩
      · conv => lhs; rw [← List.take_append_drop n.log.length n'.log, h2]
      · rw [← he']  at he; exact he
    · cases hd
  · cases hd

/-- The contrast: the same certificates with no answer from the application leave the node without anything to do. -/
example : (∀ ty ∈ [VoteType.prevote, .precommit], ∃ n, (NodeSys.new [1]).run [1] (StDemo.unchecked ty) = some n ∧
    n.sys.trigQ = [] ∧ n.stQ = []) := by
  have hd : ([VoteType.prevote, .precommit].all fun ty => match (NodeSys.new [1]).run [1] (StDemo.unchecked ty) with
      | some n => n.sys.trigQ.isEmpty && n.stQ.isEmpty
      | none => false) = true := by decide +kernel
  intro ty hty
  have h := List.all_eq_true.1 hd ty hty
  split at h
  · rename_i n hn
    simp only [Bool.and_eq_true, List.isEmpty_iff] at h
    exact ⟨n, hn, h.1, h.2⟩
  · cases h

end Overlord
