import Verif.Proofs.StateProv
import Verif.Proofs.StateDemo

/-!
# C29, C32, C34: what the node logs, commits and hands to the voting state machine
-/

set_option linter.unusedSimpArgs false
set_option linter.unusedVariables false
set_option linter.unnecessarySeqFocus false
set_option linter.unusedSectionVars false

namespace Overlord
open M Spec

variable {T : Type} [ContentCodec T] [DecidableEq T]

/-! ## C29 — nothing is voted before it is logged -/

theorem preceded_effects {needs : Effect T → Prop} {R : Effect T → Effect T → Prop} {e : Env T} {i : Input T}
    (h : ∀ s eff s', Micro e i s eff s' → Preceded needs R eff) (s : State T) :
    Preceded needs R (effects e i s) :=
  arm_inv (P := fun w => Preceded needs R w.log) Preceded.nil fun _ _ _ hp hm => hp.append (h _ _ _ hm)

/-- Whatever the node handles, in whatever state: directly before a vote leaves the node, a WAL record with the
vote's height, round and step has been saved. -/
theorem C29_vote_after_log (e : Env T) (i : Input T) (s : State T) (a b : List (Effect T)) (x : Effect T)
    (sv : SignedVote) (hx : effects e i s = a ++ x :: b) (hv : releasedVote x = some sv) :
    ∃ a' y, a = a' ++ [y] ∧
      recorded y = some (sv.vote.height, sv.vote.round, sv.vote.voteType.toStep) := by
  have key : Preceded (fun x : Effect T => releasedVote x ≠ none) (fun y x => ∀ sv, releasedVote x = some sv →
      recorded y = some (sv.vote.height, sv.vote.round, sv.vote.voteType.toStep)) (effects e i s) := by
    refine preceded_effects (fun s eff s' hm => ?_) s
    cases hm with
    | castVote ty hash lr lock sv hsv hi hl hv ha hs =>
      refine Preceded.pair (by simp [releasedVote]) ?_
      intro sv' hsv'
      have : sv' = sv := by
        cases hld : s.isLeader <;> simp [hld, releasedVote] at hsv' <;> exact hsv'.symm
      subst this
      simp [recorded, walRec, hv]
    | enterRound => split <;> exact Preceded.none (by simp [releasedVote])
    | adopt =>
      refine Preceded.none fun x hx => ?_
      simp only [List.cons_append, List.mem_cons, List.mem_append, List.mem_map, List.mem_singleton,
        List.not_mem_nil, or_false] at hx
      rcases hx with rfl | ⟨_, _, rfl⟩ | rfl <;> simp [releasedVote]
    | _ => exact Preceded.none (by simp [releasedVote])
  obtain ⟨a', y, h1, h2⟩ := key a x b hx (by simp [hv])
  exact ⟨a', y, h1, h2 sv hv⟩

/-- The same for chokes, which are logged with the brake step. -/
theorem C29_choke_after_log (e : Env T) (i : Input T) (s : State T) (a b : List (Effect T)) (x : Effect T)
    (sc : SignedChoke) (hx : effects e i s = a ++ x :: b) (hv : releasedChoke x = some sc) :
    ∃ a' y, a = a' ++ [y] ∧ recorded y = some (sc.choke.height, sc.choke.round, Step.brake) := by
  have key : Preceded (fun x : Effect T => releasedChoke x ≠ none) (fun y x => ∀ sc, releasedChoke x = some sc →
      recorded y = some (sc.choke.height, sc.choke.round, Step.brake)) (effects e i s) := by
    refine preceded_effects (fun s eff s' hm => ?_) s
    cases hm with
    | castVote ty hash lr lock sv hsv hi hl hv ha hs =>
      refine Preceded.none fun x hx => ?_
      cases hld : s.isLeader <;> simp [hld] at hx <;> rcases hx with rfl | rfl <;> simp [releasedChoke]
    | castChoke sc lr lock hsv hi hl hc ha hs =>
      refine Preceded.pair (by simp [releasedChoke]) ?_
      intro sc' hsc'
      simp only [releasedChoke, Option.some.injEq] at hsc'
      subst hsc'
      simp [recorded, walRec, hc]
    | enterRound => split <;> exact Preceded.none (by simp [releasedChoke])
    | adopt =>
      refine Preceded.none fun x hx => ?_
      simp only [List.cons_append, List.mem_cons, List.mem_append, List.mem_map, List.mem_singleton,
        List.not_mem_nil, or_false] at hx
      rcases hx with rfl | ⟨_, _, rfl⟩ | rfl <;> simp [releasedChoke]
    | _ => exact Preceded.none (by simp [releasedChoke])
  obtain ⟨a', y, h1, h2⟩ := key a x b hx (by simp [hv])
  exact ⟨a', y, h1, h2 sc hv⟩

/-- If the storage refuses to save, no vote and no choke leaves the node, and nothing is committed. -/
theorem C29_no_save_no_vote (e : Env T) (i : Input T) (s : State T) (h : ∀ b, e.walSave b = false) :
    ∀ x ∈ effects e i s, releasedVote x = none ∧ releasedChoke x = none ∧ ∀ k c r, x ≠ .commitCall k c r := by
  intro x hx
  have no : ∀ w, ¬ Saved e w true := fun w ⟨b, _, hb⟩ => by simp [h b] at hb
  obtain ⟨s1, eff, s2, _, hm, hx⟩ := arm_effect (P := fun _ => True) trivial (fun _ _ _ _ _ => trivial) hx
  cases hm with
  | castVote ty hash lr lock sv hsv => exact absurd hsv (no _)
  | castChoke sc lr lock hsv => exact absurd hsv (no _)
  | commit hash content qc hsv => exact absurd hsv (no _)
  | adopt status hsv => exact absurd hsv (no _)
  | enterRound => split at hx <;> simp at hx <;> subst hx <;> simp [releasedVote, releasedChoke]
  | _ =>
    simp only [List.mem_cons, List.not_mem_nil, or_false, false_or] at hx
    try first
      | (subst hx; simp [releasedVote, releasedChoke])
      | (rcases hx with rfl | rfl <;> simp [releasedVote, releasedChoke])
      | (rcases hx with rfl | rfl | rfl <;> simp [releasedVote, releasedChoke])

namespace StDemo

/-- A follower casts a prevote: the record is written, then the vote goes to the leader. -/
example : let s : State C := { st0 with leaderAddress := [2] }
    effects env (.event (.prevoteVote 7 0 [5] none)) s =
      [.saveWal { height := 7, round := 0, step := .prevote, lock := none, «from» := .precommitQC mockInitQc } true]
      ++ .transmit [2] (.signedVote (vote 1 7 0 .prevote [5])) :: [] := by
  decide +kernel

example : (effects env (.event (.brake 7 0 none)) st0).map releasedChoke =
    [none, some (choke 1 7 0 (.precommitQC mockInitQc))] := by decide +kernel

example : effects envBroken (.event (.prevoteVote 7 0 [5] none)) st0 =
    [.saveWal { height := 7, round := 0, step := .prevote, lock := none, «from» := .precommitQC mockInitQc } false] := by
  decide +kernel

end StDemo

/-! ## C32 — committed data is consistent with its proof -/

/-- `commit` is called for the height the node is at. -/
theorem commit_call_height {e : Env T} {hash : Hash} {s : State T} {k : Nat} {c : Commit T} {r : Option Status}
    (hx : .commitCall k c r ∈ effects e (.event (.commit hash)) s) : k = s.height := by
  have : wp (runArm (.event (.commit hash))) e ⟨s, []⟩
      (fun _ w => ∀ k c r, .commitCall k c r ∈ w.log → k = s.height)
      (fun _ w => ∀ k c r, .commitCall k c r ∈ w.log → k = s.height) := by
    unfold runArm handleEvent handleCommit
    wps
    refine ⟨fun _ => by simp, fun _ => ⟨fun _ => by simp, fun _ => ⟨fun content hb => ⟨fun qc hq => ?_, ?_⟩, ?_⟩⟩⟩
    · refine wp_saveWal (by simp) (by simp) fun b _ _ => ?_
      wps [nextProposer]
      refine ⟨fun st hst => ⟨fun p hp => ?_, by simp; tauto⟩, by simp; tauto⟩
      refine wp_gotoNewHeight ?_ ?_ ?_ ?_ ?_ <;>
        · intros
          simp_all
    · simp
    · simp
  exact wp_post this _ _ _ hx

theorem prov_new (addr : Address) (h0 interval : Nat) (l : List Node) :
    Prov [] [] (State.new addr h0 interval l : State T) := by
  refine ⟨VotesOk.new, ?_, ?_, ?_, ?_, ?_⟩ <;>
    simp [State.new, qcId, VoteCollector.getQcByHash, ProposalCollector.get, AMap.get?]

/-- Over any history of a node, whatever the application, the storage and the network do: every call of
`commit` is directly preceded by a saved record of the commit step of that height, which holds the committed
content and the certificate; the certificate is a precommit certificate of this height for the committed hash,
its round and signature are the proof's; the certificate and the content have come from where `CertificateFrom`
and `ContentFrom` say. -/
theorem C32_commit_consistent (addr : Address) (h0 interval : Nat) (l : List Node)
    (ins : List (Env T × Input T)) (s : State T) (hs : (State.new addr h0 interval l).after ins = some s)
    (e : Env T) (i : Input T) (a b : List (Effect T)) (k : Nat) (c : Commit T) (res : Option Status)
    (hx : effects e i s = a ++ .commitCall k c res :: b) :
    c.height = k ∧ c.proof.height = k ∧ (i ≠ .start → k = s.height) ∧
    ∃ a' w lock, a = a' ++ [.saveWal w true] ∧ w.step = .commit ∧ w.height = k ∧ w.lock = some lock ∧
      lock.content = c.content ∧
      lock.lockVotes.voteType = .precommit ∧ lock.lockVotes.height = k ∧
      lock.lockVotes.blockHash = c.proof.blockHash ∧ lock.lockVotes.round = c.proof.round ∧
      lock.lockVotes.signature = c.proof.signature ∧
      CertificateFrom (ins ++ [(e, i)]) ((State.new addr h0 interval l).trace ins ++ a) lock.lockVotes ∧
      ContentFrom (ins ++ [(e, i)]) ((State.new addr h0 interval l).trace ins ++ a)
        c.proof.blockHash c.content := by
  obtain ⟨s1, pre, eff, s2, u, v, hp, hm, he, ha⟩ := prov_effect (prov_new addr h0 interval l) hs hx
  cases hm with
  | commit hash content qc hsv hi hb hq c' hc =>
    rcases u with _ | ⟨u1, _ | ⟨u2, u3⟩⟩
    · simp at he
    · simp only [List.cons_append, List.nil_append, List.cons.injEq, Effect.commitCall.injEq] at he
      obtain ⟨rfl, ⟨rfl, rfl, rfl⟩, rfl⟩ := he
      have hvk := hp.votes.byHash _ _ _ _ hq
      have hmem : .commitCall s1.height c' (e.commit s1.height c') ∈ effects e i s := by rw [hx]; simp
      subst hc
      refine ⟨rfl, rfl, fun hne => ?_, pre, _, _, ha, rfl, rfl, rfl, rfl, hvk.2.2, hvk.1, hvk.2.1, rfl, rfl, ?_, ?_⟩
      · rcases hi with rfl | rfl
        · exact commit_call_height hmem
        · exact absurd rfl hne
      · exact certFrom_mono (hp.qcHash _ _ _ _ hq) (fun _ h => h) (fun _ h => by rw [ha]; simp at h ⊢; tauto)
      · exact contFrom_mono (hp.content _ _ hb) (fun _ h => h) (fun _ h => by rw [ha]; simp at h ⊢; tauto)
    · simp at he
  | castVote ty hash lr lock sv =>
    have hmem : (.commitCall k c res : Effect T) ∈ u ++ .commitCall k c res :: v := by simp
    rw [← he] at hmem
    cases hld : s1.isLeader <;> simp [hld] at hmem
  | enterRound =>
    have hmem : (.commitCall k c res : Effect T) ∈ u ++ .commitCall k c res :: v := by simp
    rw [← he] at hmem
    split at hmem <;> simp at hmem
  | _ =>
    have hmem : (.commitCall k c res : Effect T) ∈ u ++ .commitCall k c res :: v := by simp
    rw [← he] at hmem
    simp at hmem

namespace StDemo

/-- A full history that ends in a commit. -/
def commitIns : List (Env C × Input C) :=
  [(env, .start), (env, .event (.newRoundInfo 7 0 none none (.precommitQC U64MAX) none none)),
   (env, .verified (.signedProposal (prop 2 7 0 [5, 5] [5]))),
   (env, .resp { height := 7, round := 0, blockHash := [5], isPass := true }),
   (env, .verified (.aggregatedVote (cert [1, 2, 3] 7 0 .precommit [5])))]

def commits : Effect C → Option (Nat × List UInt8)
  | .commitCall k c _ => some (k, c.content)
  | _ => none

example : (st0.after commitIns).isSome ∧
    (effects env (.event (.commit [5])) ((st0.after commitIns).getD st0)).map commits =
      [none, some (7, [5, 5]), none, none] := by decide +kernel

end StDemo

/-! ## C34 — no certificate is acted on before the block is checked -/

/-- Over any history: a quorum certificate for a non-empty hash is handed to the voting state machine only after
the result of a block check for that hash has arrived; if checks only report success (see `check_current_block`),
then after a success for that hash. -/
theorem C34_checked_first (addr : Address) (h0 interval : Nat) (l : List Node)
    (ins : List (Env T × Input T)) (s : State T) (hs : (State.new addr h0 interval l).after ins = some s)
    (e : Env T) (i : Input T) (t : SMRTrigger) (ht : .trigger t ∈ effects e i s)
    (hty : t.triggerType = .prevoteQC ∨ t.triggerType = .precommitQC) (hne : t.hash ≠ []) :
    ∃ e' r, (e', .resp r) ∈ ins ++ [(e, i)] ∧ r.blockHash = t.hash ∧
      ((∀ e'' r', (e'', .resp r') ∈ ins ++ [(e, i)] → r'.isPass = true) → r.isPass = true) := by
  obtain ⟨a, b, hx⟩ := List.append_of_mem ht
  obtain ⟨s1, pre, eff, s2, u, v, hp, hm, he, ha⟩ := prov_effect (prov_new addr h0 interval l) hs hx
  have hmem : (.trigger t : Effect T) ∈ eff := by rw [he]; simp
  cases hm with
  | trigQcId r ty qc hq hf =>
    simp only [List.mem_cons, List.not_mem_nil, or_false, Effect.trigger.injEq] at hmem
    subst hmem
    simp only [stTrigger] at hne ⊢
    simp only [State.tryGetFullTxs, hne, if_false] at hf
    split at hf
    · rename_i b hb
      obtain ⟨e', r', h1, h2, h3⟩ := hp.checked _ _ hb
      exact ⟨e', r', h1, h2, fun hall => hall _ _ h1⟩
    · simp at hf
  | trigQcHash h ty qc hi hq hr =>
    simp only [List.mem_cons, List.not_mem_nil, or_false, Effect.trigger.injEq] at hmem
    subst hmem
    obtain ⟨r, rfl, hr1, hr2⟩ := hi
    have := hp.votes.byHash _ _ _ _ hq
    refine ⟨e, r, by simp, ?_, fun hall => hall e r (by simp)⟩
    simp only [stTrigger]
    rw [this.2.1, hr1]
  | enterRound => split at hmem <;> simp at hmem
  | castVote ty hash lr lock sv => cases hld : s1.isLeader <;> simp [hld] at hmem
  | adopt =>
    simp only [List.cons_append, List.mem_cons, List.mem_append, List.mem_map, List.not_mem_nil, or_false,
      reduceCtorEq, false_or, and_false, exists_false, Effect.trigger.injEq] at hmem
    subst hmem
    simp [stTrigger] at hty
  | _ =>
    simp only [List.mem_cons, List.not_mem_nil, or_false, reduceCtorEq, false_or, Effect.trigger.injEq] at hmem
    try (subst hmem; simp [stTrigger, walTrig] at hty)

namespace StDemo

/-- The certificate waits for the check, then is handed over. -/
example : ((st0.after (commitIns.take 3)).map fun s =>
      triggers (effects env (.verified (.aggregatedVote (cert [1, 2, 3] 7 0 .precommit [5]))) s)) = some [] ∧
    ((st0.after (commitIns.take 4)).map fun s =>
      (triggers (effects env (.verified (.aggregatedVote (cert [1, 2, 3] 7 0 .precommit [5]))) s)).map
        fun t => (t.triggerType, t.hash)) = some [(.precommitQC, [5])] := by
  constructor <;> decide +kernel

end StDemo

end Overlord
