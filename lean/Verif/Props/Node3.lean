import Verif.Proofs.NodeAuth
import Verif.Props.Node2
import Verif.Props.Commit

/-!
# What is processed has been verified (C21)

Model: `Verif/Model/Node.lean`. Vocabulary: `Verif/Spec/Node.lean`.
-/

set_option linter.unusedSimpArgs false
set_option linter.unusedVariables false
set_option linter.unusedSectionVars false

namespace Overlord
open Spec

variable {T : Type} [ContentCodec T] [DecidableEq T]

theorem checked_snoc {addr : Address} {as : List (NAct T)} {m : OverlordMsg T} {a : Authority} (h : CheckedIn addr as m a)
    {x : NAct T} (hx : ∀ p e cut, x ≠ .start p e cut) : CheckedIn addr (as ++ [x]) m a := by
  obtain ⟨as1, c, i, as2, n, h1, h2, h3⟩ := h
  refine ⟨as1, c, i, as2 ++ [x], n, by simp [h1], ?_, h3⟩
  intro p e cut hm
  rcases List.mem_append.1 hm with hm | hm
  · exact h2 p e cut hm
  · exact hx p e cut (List.mem_singleton.1 hm).symm

theorem early_snoc {addr : Address} {as : List (NAct T)} {m : OverlordMsg T} (h : ArrivedEarly addr as m)
    {x : NAct T} (hx : ∀ p e cut, x ≠ .start p e cut) : ArrivedEarly addr (as ++ [x]) m := by
  obtain ⟨as1, e, cut, as2, n, k, h1, h2, h3⟩ := h
  refine ⟨as1, e, cut, as2 ++ [x], n, k, by simp [h1], ?_, h3⟩
  intro p e cut hm
  rcases List.mem_append.1 hm with hm | hm
  · exact h2 p e cut hm
  · exact hx p e cut (List.mem_singleton.1 hm).symm

/-- Running verifications are for the current list; what waits to be handled is verified or arrived early. -/
structure AuthInv (addr : Address) (as : List (NAct T)) (n : NodeSys T) : Prop where
  running : ∀ m a, (m, a) ∈ n.verifying → ∃ k, m.getHeight? = some k ∧ k ≤ n.st.height ∧ (k = n.st.height → a = n.st.authority)
  waiting : ∀ m ∈ n.verifiedQ, m.isRichStatus = false → ∀ k, m.getHeight? = some k → n.st.height ≤ k →
    ArrivedEarly addr as m ∨ (k = n.st.height ∧ CheckedIn addr as m n.st.authority)

theorem AuthInv.arm {addr : Address} {as : List (NAct T)} {n n1 : NodeSys T} {x : Arm T} {i : Input T} {e : Env T}
    (h : AuthInv addr as n) (hrun : (NodeSys.new addr).run addr as = some n) (hd : n.down = false)
    (ht : n.take x = some (i, n1)) (ok : CommitsAnswered e) :
    AuthInv addr (as ++ [.arm x e none]) (n1.took none (runArm i e ⟨n.st, []⟩)) := by
  have hns : ∀ p e' cut, NAct.arm x e none ≠ (.start p e' cut : NAct T) := by simp
  have hv : n1.verifying = n.verifying ∧ ∀ m ∈ n1.verifiedQ, m ∈ n.verifiedQ := by
    unfold NodeSys.take at ht
    split at ht
    · simp only [Option.some.injEq, Prod.mk.injEq] at ht; obtain ⟨_, rfl⟩ := ht; exact ⟨rfl, fun m h => h⟩
    · split at ht
      · cases ht
      · simp only [Option.some.injEq, Prod.mk.injEq] at ht; obtain ⟨_, rfl⟩ := ht; exact ⟨rfl, fun m h => h⟩
    · split at ht
      · cases ht
      · simp only [Option.some.injEq, Prod.mk.injEq] at ht; obtain ⟨_, rfl⟩ := ht; exact ⟨rfl, fun m h => h⟩
    · split at ht
      · cases ht
      · rename_i m q hq
        simp only [Option.some.injEq, Prod.mk.injEq] at ht; obtain ⟨_, rfl⟩ := ht
        exact ⟨rfl, fun m' h => by rw [hq]; exact List.mem_cons_of_mem _ h⟩
  have hst : (n1.took none (runArm i e ⟨n.st, []⟩)).st = (runArm i e ⟨n.st, []⟩).2.st := rfl
  have hrunning : (n1.took none (runArm i e ⟨n.st, []⟩)).verifying = n1.verifying ++ (runArm i e ⟨n.st, []⟩).2.log.filterMap fun
      | .spawnVerify m a => some (m, a)
      | _ => none := rfl
  have hwaiting : (n1.took none (runArm i e ⟨n.st, []⟩)).verifiedQ = n1.verifiedQ ++ (runArm i e ⟨n.st, []⟩).2.log.filterMap fun
      | .toVerified m => some m
      | _ => none := rfl
  -- what the arm does
  have key : n.st.height ≤ (runArm i e ⟨n.st, []⟩).2.st.height ∧
      ((runArm i e ⟨n.st, []⟩).2.st.height = n.st.height → (runArm i e ⟨n.st, []⟩).2.st.authority = n.st.authority) ∧
      (∀ m a, .spawnVerify m a ∈ (runArm i e ⟨n.st, []⟩).2.log →
        m.getHeight? = some (runArm i e ⟨n.st, []⟩).2.st.height ∧ a = (runArm i e ⟨n.st, []⟩).2.st.authority) ∧
      (∀ m, .toVerified m ∈ (runArm i e ⟨n.st, []⟩).2.log → x = .raw m ∧
        (m.isRichStatus = true ∨ ∃ k, m.getHeight? = some k ∧ n.st.height < k)) := by
    have hi : i ≠ .start := (take_spec ht).1
    by_cases hr : ∃ m, i = .raw m
    · obtain ⟨m, rfl⟩ := hr
      have hx : x = .raw m := by
        unfold NodeSys.take at ht
        split at ht
        · simp only [Option.some.injEq, Prod.mk.injEq, Input.raw.injEq] at ht; rw [ht.1]
        all_goals
          split at ht
          · cases ht
          · simp at ht
      obtain ⟨g1, g2⟩ := raw_auth (e := e) (m := m) (s := n.st)
      rw [g1]
      refine ⟨Nat.le_refl _, fun _ => rfl, ?_, ?_⟩
      · intro m' a hm'
        rcases g2 with g | ⟨g, _⟩ | ⟨g, g'⟩
        · rw [g] at hm'; cases hm'
        · rw [g] at hm'; simp at hm'
        · rw [g] at hm'; simp at hm'; rw [hm'.1]; exact ⟨g', hm'.2⟩
      · intro m' hm'
        rcases g2 with g | ⟨g, g'⟩ | ⟨g, g'⟩
        · rw [g] at hm'; cases hm'
        · rw [g] at hm'; simp at hm'; rw [hm']; exact ⟨hx, g'⟩
        · rw [g] at hm'; simp at hm'
    · have g := arm_auth (e := e) (node_filed hrun hd) ok hi (fun m hm => hr ⟨m, hm⟩)
      exact ⟨g.up, g.same, g.spawn, fun m hm => (g.fwd m hm).elim⟩
  obtain ⟨k1, k2, k3, k4⟩ := key
  refine ⟨?_, ?_⟩
  · intro m a hm
    rw [hrunning, hv.1] at hm
    rw [hst]
    rcases List.mem_append.1 hm with hm | hm
    · obtain ⟨k, h1, h2, h3⟩ := h.running m a hm
      refine ⟨k, h1, by omega, fun he => ?_⟩
      rw [k2 (by omega)]; exact h3 (by omega)
    · obtain ⟨y, hy, he⟩ := List.mem_filterMap.1 hm
      cases y <;> simp at he
      obtain ⟨rfl, rfl⟩ := he
      obtain ⟨g1, g2⟩ := k3 _ _ hy
      exact ⟨_, g1, Nat.le_refl _, fun _ => g2⟩
  · intro m hm hrs k hk hle
    rw [hwaiting] at hm
    rw [hst] at hle ⊢
    rcases List.mem_append.1 hm with hm | hm
    · rcases h.waiting m (hv.2 m hm) hrs k hk (by omega) with g | ⟨g1, g2⟩
      · exact .inl (early_snoc g hns)
      · right
        refine ⟨by omega, ?_⟩
        rw [k2 (by omega)]; exact checked_snoc g2 hns
    · obtain ⟨y, hy, he⟩ := List.mem_filterMap.1 hm
      cases y <;> simp at he
      subst he
      obtain ⟨rfl, g2⟩ := k4 _ hy
      rcases g2 with g2 | ⟨k', g2, g3⟩
      · rw [g2] at hrs; cases hrs
      · exact .inl ⟨as, e, none, [], n, k', rfl, by simp, hrun, g2, g3⟩

theorem AuthInv.frame {addr : Address} {as : List (NAct T)} {n n' : NodeSys T} {x : NAct T} (h : AuthInv addr as n)
    (hx : ∀ p e cut, x ≠ .start p e cut) (h1 : n'.st = n.st) (h2 : n'.verifying = n.verifying) (h3 : n'.verifiedQ = n.verifiedQ) :
    AuthInv addr (as ++ [x]) n' := by
  refine ⟨by rw [h1, h2]; exact h.running, ?_⟩
  rw [h1, h3]
  intro m hm hr k hk hle
  rcases h.waiting m hm hr k hk hle with g | ⟨g1, g2⟩
  · exact .inl (early_snoc g hx)
  · exact .inr ⟨g1, checked_snoc g2 hx⟩

theorem drain_keep {ts : List SMRTrigger} : ∀ (n : NodeSys T), (n.drain ts).verifying = n.verifying ∧ (n.drain ts).verifiedQ = n.verifiedQ := by
  induction ts with
  | nil => intro n; exact ⟨rfl, rfl⟩
  | cons t ts ih =>
    intro n
    simp only [NodeSys.drain]
    split
    · exact ih _
    · exact ih _
    · exact ⟨rfl, rfl⟩
    · exact ⟨rfl, rfl⟩

theorem auth_inv {addr : Address} {as : List (NAct T)} {n : NodeSys T} (hrun : (NodeSys.new addr).run addr as = some n)
    (hok : ∀ as1 a as2 n1, as = as1 ++ a :: as2 → (NodeSys.new addr).run addr as1 = some n1 → AnswersOk n1 a) :
    n.down = false → AuthInv addr as n := by
  revert hok
  refine life_inv (P := fun as n => (∀ as1 a as2 n1, as = as1 ++ a :: as2 → (NodeSys.new addr).run addr as1 = some n1 → AnswersOk n1 a) →
    n.down = false → AuthInv addr as n) (by simp [NodeSys.new, NodeSys.fresh]) ?_ as n hrun
  intro as n a n' hrun ih ha hok hup
  have hka := hok as a [] n rfl hrun
  replace ih := ih (fun as1 a' as2 n1 h1 h2 => hok as1 a' (as2 ++ [a]) n1 (by simp [h1]) h2)
  cases a with
  | start p e cut =>
    obtain ⟨hd, hcase⟩ := start_act ha
    rcases hcase with ⟨h, _⟩ | ⟨_, hc, _, heq⟩
    · rw [hup] at h; cases h
    subst hc
    obtain ⟨g1, g2⟩ := start_spawn (e := e) (s := State.new addr p.initHeight p.interval p.list) (Store.new ..) hka
    generalize (runArm .start e ⟨(State.new addr p.initHeight p.interval p.list : State T), []⟩).2 = w at *
    have e1 : n'.st = w.st := by rw [heq]; unfold NodeSys.started; rw [drain_st]
    have e2 : n'.verifying = w.log.filterMap fun
      | .spawnVerify m a => some (m, a)
      | _ => none := by
      rw [heq]; unfold NodeSys.started; rw [(drain_keep _).1]; rfl
    have e3 : n'.verifiedQ = w.log.filterMap fun
      | .toVerified m => some m
      | _ => none := by
      rw [heq]; unfold NodeSys.started; rw [(drain_keep _).2]; rfl
    refine ⟨?_, ?_⟩
    · intro m a hm
      rw [e2] at hm
      obtain ⟨y, hy, he⟩ := List.mem_filterMap.1 hm
      cases y <;> simp at he
      obtain ⟨rfl, rfl⟩ := he
      obtain ⟨f1, f2⟩ := g1 _ _ hy
      rw [e1]
      exact ⟨_, f1, Nat.le_refl _, fun _ => f2⟩
    · intro m hm
      rw [e3] at hm
      obtain ⟨y, hy, he⟩ := List.mem_filterMap.1 hm
      cases y <;> simp at he
      subst he
      exact absurd hy (g2 _)
  | crash =>
    simp only [NodeSys.act, Option.some.injEq] at ha
    subst ha; cases hup
  | arm x e cut =>
    simp only [NodeSys.act] at ha
    split at ha
    · cases ha
    · rename_i hd
      split at ha
      · cases ha
      · rename_i i n1 ht
        cases ha
        obtain ⟨hc, _⟩ := took_up hup
        subst hc
        have hd := (Bool.not_eq_true _).mp hd
        exact (ih hd).arm hrun hd ht hka
  | verifyDone c i =>
    simp only [NodeSys.act] at ha
    split at ha
    · cases ha
    · rename_i hd
      have hd := (Bool.not_eq_true _).mp hd
      split at ha
      · cases ha
      · rename_i m a hm
        cases ha
        have h := ih hd
        refine ⟨fun m' a' hm' => h.running m' a' (List.mem_of_mem_eraseIdx hm'), ?_⟩
        intro m' hm' hrs k hk hle
        rcases List.mem_append.1 hm' with hm' | hm'
        · rcases h.waiting m' hm' hrs k hk hle with g | ⟨g1, g2⟩
          · exact .inl (early_snoc g (by simp))
          · exact .inr ⟨g1, checked_snoc g2 (by simp)⟩
        · split at hm'
          · rename_i hv
            simp only [List.mem_singleton] at hm'
            subst hm'
            obtain ⟨k', f1, f2, f3⟩ := h.running _ _ (List.mem_of_getElem? hm)
            rw [hk] at f1; cases f1
            have he : k = n.st.height := Nat.le_antisymm f2 hle
            refine .inr ⟨he, as, c, i, [], n, rfl, by simp, hrun, ?_, ?_⟩
            · have f3 := f3 he; subst f3; exact hm
            · have f3 := f3 he; subst f3; exact hv
          · cases hm'
  | checkDone i okb =>
    simp only [NodeSys.act] at ha
    split at ha
    · cases ha
    · rename_i hd
      split at ha
      · cases ha
      · cases ha; exact (ih ((Bool.not_eq_true _).mp hd)).frame (by simp) rfl rfl rfl
  | smr =>
    simp only [NodeSys.act] at ha
    split at ha
    · cases ha
    · rename_i hd
      split at ha
      · cases ha
      · split at ha
        · cases ha
        · cases ha; exact (ih ((Bool.not_eq_true _).mp hd)).frame (by simp) rfl rfl rfl
  | set =>
    simp only [NodeSys.act] at ha
    split at ha
    · cases ha
    · rename_i hd
      obtain ⟨sys, _, rfl⟩ := Option.map_eq_some_iff.1 ha
      exact (ih ((Bool.not_eq_true _).mp hd)).frame (by simp) rfl rfl rfl
  | expire i =>
    simp only [NodeSys.act] at ha
    split at ha
    · cases ha
    · rename_i hd
      obtain ⟨sys, _, rfl⟩ := Option.map_eq_some_iff.1 ha
      exact (ih ((Bool.not_eq_true _).mp hd)).frame (by simp) rfl rfl rfl
  | fire i =>
    simp only [NodeSys.act] at ha
    split at ha
    · cases ha
    · rename_i hd
      obtain ⟨sys, _, rfl⟩ := Option.map_eq_some_iff.1 ha
      exact (ih ((Bool.not_eq_true _).mp hd)).frame (by simp) rfl rfl rfl

theorem along_split {ok : NodeSys T → NAct T → Prop} {addr : Address} :
    ∀ (as1 : List (NAct T)) {n n1 : NodeSys T} {a : NAct T} {as2 : List (NAct T)},
      Along ok addr n (as1 ++ a :: as2) → n.run addr as1 = some n1 → ok n1 a := by
  intro as1
  induction as1 with
  | nil => intro n n1 a as2 h hr; simp only [NodeSys.run, Option.some.injEq] at hr; exact hr ▸ h.1
  | cons b as1 ih =>
    intro n n1 a as2 h hr
    simp only [NodeSys.run] at hr
    split at hr
    · cases hr
    · rename_i n' hn'
      exact ih (h.2 n' hn') hr

/-- **C21** (partial). When the State takes up a proposal, vote, certificate or choke for its current height, the
signature of the message has been verified against the list the State has now - unless the message arrived when the
node was still below its height.
Missing: those early messages (C21 is false for them, see `C21_false_for_early_messages`); applications that answer
a commit with a status that is not of a later height. -/
theorem C21_processed_is_verified_partial (addr : Address) (as : List (NAct T)) (n : NodeSys T)
    (hr : (NodeSys.new addr).run addr as = some n) (ok : Along AnswersOk addr (NodeSys.new addr) as)
    (hd : n.down = false) (m : OverlordMsg T) (q : List (OverlordMsg T)) (hq : n.verifiedQ = m :: q)
    (hs : m.isRichStatus = false) (hh : m.getHeight? = some n.st.height) :
    CheckedIn addr as m n.st.authority ∨ ArrivedEarly addr as m := by
  have h := auth_inv hr (fun as1 a as2 n1 h1 h2 => along_split as1 (h1 ▸ ok) h2) hd
  rcases h.waiting m (by simp [hq]) hs _ hh (Nat.le_refl _) with g | ⟨_, g⟩
  · exact .inr g
  · exact .inl g

namespace StDemo

theorem env_answers (w : Option (Option Bytes)) : CommitsAnswered { env with walLoad := w } := by
  intro k c st h
  simp only [env, Option.some.injEq] at h
  subst h
  refine ⟨Nat.lt_succ_self k, ?_⟩
  have key : ∀ x, (Authority.update nodes).getProposer .rotation (k + 1) INIT_ROUND ≠ .error x := by
    intro x hx
    have := leaderFound_rotation env rfl k c { height := k + 1, interval := none, timerConfig := none, authorityList := nodes } x rfl hx
    subst this
    simp only [Authority.getProposer, rotationLeaderIndex] at hx
    split at hx
    · rename_i h0; exact absurd h0 (by decide +kernel)
    · simp only [bind, Except.bind] at hx
      split at hx
      · cases hx
      · rename_i hn
        rw [List.getElem?_eq_none_iff] at hn
        have hlen : (Authority.update nodes).address.length = 4 := by decide +kernel
        rw [hlen] at hn
        have := Nat.mod_lt (((k + 1) * leaderStride (4 % U32) + INIT_ROUND) % U64) (show 0 < 4 % U32 by decide)
        have h4 : 4 % U32 = 4 := by decide
        omega
  cases hg : (Authority.update nodes).getProposer .rotation (k + 1) INIT_ROUND with
  | ok l => exact ⟨l, hg⟩
  | error x => exact absurd hg (key x)

/-- A vote of height 7 arrives at height 7, is verified, and waits. -/
def onTime : List (NAct C) :=
  [.start params env none, .arm (.raw (.signedVote (vote 3 7 0 .prevote [5]))) env none, .verifyDone (crypto [1]) 0]

example : ∃ n q, (NodeSys.new [1]).run [1] onTime = some n ∧ Along AnswersOk [1] (NodeSys.new [1]) onTime ∧ n.down = false ∧
    n.verifiedQ = .signedVote (vote 3 7 0 .prevote [5]) :: q ∧ n.st.height = 7 := by
  have hd : (match (NodeSys.new [1]).run [1] onTime with
      | some n => decide (n.down = false ∧ n.verifiedQ = [.signedVote (vote 3 7 0 .prevote [5])] ∧ n.st.height = 7)
      | none => false) = true := by decide +kernel
  split at hd
  · rename_i n hn
    have h := of_decide_eq_true hd
    exact ⟨n, [], hn, ⟨env_answers _, fun _ _ => ⟨env_answers _, fun _ _ => ⟨trivial, fun _ _ => trivial⟩⟩⟩, h.1, h.2.1, h.2.2⟩
  · cases hd

/-- A precommit certificate for height 8: it names three validators, but nobody has signed it. -/
def forged : AggregatedVote :=
  { signature := ⟨[], (cert [2, 3, 4] 8 0 .precommit [9]).signature.addressBitmap⟩, voteType := .precommit, height := 8, round := 0, blockHash := [9], leader := [4] }

/-- The forged certificate arrives between the arrival and the adoption of the status of height 8. -/
def early : List (NAct C) :=
  [.start params env none,
   .arm (.raw (.richStatus { height := 8, interval := none, timerConfig := none, authorityList := nodes })) env none,
   .arm (.raw (.aggregatedVote forged)) env none,
   .arm .verified env none, .smr, .arm .event env none, .checkDone 0 true, .arm .resp env none,
   .arm .verified env none, .smr, .smr, .arm .event env none, .arm .event env none]

end StDemo

/-- C21 is false for messages that arrive early: a certificate for height 8 that carries no signature at all, and that
arrives at a node which is just about to adopt the status of height 8, is taken up unverified, and the node commits the
block it names. -/
theorem C21_false_for_early_messages :
    ∃ n c r, (NodeSys.new [1]).run [1] StDemo.early = some n ∧ .commitCall 8 c r ∈ n.log ∧
      c.proof = ⟨8, 0, [9], StDemo.forged.signature⟩ ∧
      (∀ me, verifyTask (StDemo.crypto me) (.aggregatedVote StDemo.forged : OverlordMsg StDemo.C) (Authority.update StDemo.nodes) = false) := by
  have hd : (match (NodeSys.new [1]).run [1] StDemo.early with
      | some n => decide ((commitsAt n.log) = [(8, ⟨8, [9, 9], ⟨8, 0, [9], StDemo.forged.signature⟩⟩)])
      | none => false) = true := by decide +kernel
  split at hd
  · rename_i n hn
    have h := of_decide_eq_true hd
    have hm : (8, ⟨8, [9, 9], ⟨8, 0, [9], StDemo.forged.signature⟩⟩) ∈ commitsAt n.log := by rw [h]; simp
    obtain ⟨x, hx, he⟩ := List.mem_filterMap.1 hm
    cases x <;> simp at he
    obtain ⟨rfl, rfl⟩ := he
    refine ⟨n, _, _, hn, hx, rfl, fun me => ?_⟩
    have : verifyTask (StDemo.crypto me) (.aggregatedVote StDemo.forged : OverlordMsg StDemo.C) (Authority.update StDemo.nodes) =
      verifyTask (StDemo.crypto []) (.aggregatedVote StDemo.forged : OverlordMsg StDemo.C) (Authority.update StDemo.nodes) := rfl
    rw [this]; decide +kernel
  · cases hd

end Overlord
