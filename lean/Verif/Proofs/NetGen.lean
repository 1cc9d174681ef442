import Verif.Proofs.NetInv
import Verif.Proofs.Prov

/-!
What is stored, sent, saved and committed in a network comes from votes that were released (used for C51, C52). Unlike
Proofs/NetInv.lean this needs neither `InSync` nor `KeepsLocks` nor bounds on rounds nor few faulty validators.
-/

set_option linter.unusedSimpArgs false
set_option linter.unusedVariables false
set_option linter.unusedSectionVars false
set_option linter.unnecessarySeqFocus false

namespace Overlord
open M Spec

variable {T : Type} [ContentCodec T] [DecidableEq T]

/-- The lock in the trigger that starts the voting state machine comes from a certificate. -/
def WalCert (B : Certs) (t : SMRTrigger) : Prop :=
  t.triggerType = .walInfo → ∀ w l, t.walInfo = some w → w.polc = some l → B .prevote w.height l.round l.hash

/-- What the channels of a node hold comes from certificates that can exist. -/
def genPreds (lists : Nat → List Node) (V : SignedVote → Prop) (B : Certs) (addr : Address) : Preds T where
  st := fun s => StGen lists V B s ∧ s.address = addr
  smr := SmrOk B
  trig := fun t => TrigCert B t ∧ WalCert B t
  ev := EvOk B
  msg := fun _ => True
  ver := fun _ _ => True
  chk := fun _ _ _ _ => True
  resp := fun _ => True

theorem genPreds_smr {lists : Nat → List Node} {V : SignedVote → Prop} {B : Certs} {addr : Address} (m : Smr) (t : SMRTrigger)
    (hm : SmrOk B m) (ht : TrigCert B t ∧ WalCert B t) :
    SmrOk B (m.onTrigger t).next ∧ ∀ ev ∈ (m.onTrigger t).outs.filterMap Out.toState, EvOk B ev := by
  by_cases hw : t.triggerType = .walInfo
  · have hc := smr_case m t
    generalize hgo : m.onTrigger t = o at *
    cases hc with
    | wal w h1 h2 =>
      unfold Smr.handleWal
      dsimp only
      have key : ∀ (s1 : Smr), s1.height = w.height → s1.lock = w.polc → (∀ l, w.polc = some l → s1.blockHash = l.hash) → SmrOk B s1 := by
        intro s1 e1 e2 e3 l hl
        rw [e2] at hl
        exact ⟨e3 l hl, by rw [e1]; exact ht.2 hw w l h2 hl⟩
      split <;> refine ⟨key _ rfl rfl (fun l hl => by simp [hl]), ?_⟩ <;> simp [Out.toState]
    | quiet res => exact ⟨hm, by simp⟩
    | newHeight st h1 => rw [h1] at hw; cases hw
    | _ => simp_all
  · exact smr_ok hw ht.1 hm

/-- The releases of a node carry its own name. -/
theorem votes_own {e : Env T} {s : State T} {i : Input T} (hi : i ≠ .start) :
    ∀ sv ∈ votesOf (runArm i e ⟨s, []⟩).2.log, sv.voter = s.address := by
  intro sv hsv
  rw [votesOf_obs] at hsv
  cases arm_out e s i hi with
  | quiet q1 => rw [q1] at hsv; cases hsv
  | status st hst o => rw [← votesOf_obs, moves_votes o] at hsv; cases hsv
  | event ev hev hp o =>
    subst hev
    generalize (runArm (.event ev) e ⟨s, []⟩).2 = w at *
    cases o with
    | newRound h0 r lr lp f ni nc o =>
      rcases o.out with ho | ⟨lock, u, hl, ho⟩ <;> rw [ho] at hsv <;> cases hsv
    | prevote h0 r hash lr o =>
      rcases o.out with ho | ⟨lock, sv', hl, _, hvv, ho⟩ <;> rw [ho] at hsv
      · cases hsv
      · simp [obsVotes] at hsv; subst hsv; exact hvv
    | precommit h0 r hash lr o =>
      rcases o.out with ho | ⟨lock, sv', hl, _, hvv, ho⟩ <;> rw [ho] at hsv
      · cases hsv
      · simp [obsVotes] at hsv; subst hsv; exact hvv
    | commit hash o => rw [← votesOf_obs, commit_votes o] at hsv; cases hsv
    | brake r lr o =>
      rcases o.out with ho | ⟨lock, hl, ho⟩ <;> rw [ho] at hsv <;> cases hsv
    | stale h0 r lr hh hw => rw [hw] at hsv; cases hsv
    | stop hw => rw [hw] at hsv; cases hsv

/-- What is known about a correct node. -/
structure GenNode (lists : Nat → List Node) (V : SignedVote → Prop) (B : Certs) (addr : Address) (n : NodeSys T) : Prop where
  obs : ∀ o ∈ obs n.log, ObsGen B o
  log : ∀ x ∈ n.log, EffGen B x
  up : n.down = false → (genPreds lists V B addr).Holds n

theorem GenNode.mono {lists : Nat → List Node} {V V' : SignedVote → Prop} {B B' : Certs} {addr : Address} {n : NodeSys T}
    (hV : ∀ v, V v → V' v) (hB : ∀ ty k r x, B ty k r x → B' ty k r x) (h : GenNode lists V B addr n) : GenNode lists V' B' addr n :=
  ⟨fun o ho => (h.obs o ho).mono hB, fun x hx => (h.log x hx).mono hB, fun hd =>
    (h.up hd).mono (fun s hs => ⟨hs.1.mono hV hB, hs.2⟩) (fun m hm => hm.mono hB)
      (fun t ht => ⟨ht.1.mono hB, fun h1 w l h2 h3 => hB _ _ _ _ (ht.2 h1 w l h2 h3)⟩) (fun e he => he.mono hB)
      (fun _ h => h) (fun _ _ h => h) (fun _ _ _ _ h => h) (fun _ h => h)⟩

/-- What is asked of a step. -/
structure GenStepOk (lists : Nat → List Node) (addr : Address) (n : NodeSys T) (a : NAct T) : Prop where
  start : StartOk addr n a
  answers : AnswersOk n a
  saves : SavesWork n a
  given : GivenLists lists addr n a

theorem mem_obsSaves {l : List (Obs T)} {w : WalInfo T} (h : w ∈ obsSaves l) : Obs.save w ∈ l := by
  unfold obsSaves at h
  obtain ⟨x, hx, he⟩ := List.mem_filterMap.1 h
  cases x <;> simp at he
  subst he; exact hx

theorem gen_step {lists : Nat → List Node} {V V' : SignedVote → Prop} {B B' : Certs} {addr : Address} {n n' : NodeSys T} {a : NAct T}
    (hgl : GoodLists lists) (hV : ∀ v, V v → V' v) (hB : ∀ ty k r x, B ty k r x → B' ty k r x) (hcnt : Counts lists V' B')
    (h0 : GenNode lists V B addr n) (ok : GenStepOk lists addr n a)
    (hin : ∀ e cut, a = .arm .verified e cut → ∀ m q, n.verifiedQ = m :: q → m.isRichStatus = true ∨ n.st.consensusPower = true ∧ m.getHeight? = some n.st.height →
      MsgGen lists V B m)
    (ha : n.act addr a = some n') (hvs : ∀ l, n'.log = n.log ++ l → ∀ sv ∈ votesOf l, sv.voter = addr → V' sv) :
    GenNode lists V' B' addr n' := by
  have h := h0.mono hV hB
  obtain ⟨ok3, ok4, ok5, ok6⟩ := ok
  have tim : ∀ ty k r, (genPreds (T := T) lists V' B' addr).trig (timeoutTrigger ty k r) := by
    intro ty k r
    refine ⟨fun hs => ?_, fun hs => ?_⟩
    · simp [timeoutTrigger] at hs
    · intro w l hw; simp [timeoutTrigger] at hw
  have smr : ∀ m t, (genPreds (T := T) lists V' B' addr).smr m → (genPreds (T := T) lists V' B' addr).trig t →
      (genPreds (T := T) lists V' B' addr).smr (m.onTrigger t).next ∧
      ∀ ev ∈ (m.onTrigger t).outs.filterMap Out.toState, (genPreds (T := T) lists V' B' addr).ev ev :=
    fun m t hm ht => genPreds_smr (lists := lists) (V := V') (addr := addr) m t hm ht
  have quiet : n'.log = n.log → (n'.down = false → (genPreds lists V' B' addr).Holds n') → GenNode lists V' B' addr n' :=
    fun e1 e2 => ⟨by rw [e1]; exact h.obs, by rw [e1]; exact h.log, e2⟩
  have other : (∀ p e cut, a ≠ .start p e cut) → (∀ x e cut, a ≠ .arm x e cut) → GenNode lists V' B' addr n' := by
    intro g1 g2
    refine quiet ?_ ?_
    · rcases act_log ha with ⟨e1, _⟩ | ⟨i, e, cut, s, _, _, ⟨_, _, _, x, n1, _, e1⟩ | ⟨_, _, p, e1, _⟩⟩
      · exact e1
      · exact absurd e1 (g2 _ _ _)
      · exact absurd e1 (g1 _ _ _)
    · exact Preds.act h.up ha (fun x e cut i e1 => absurd e1 (g2 _ _ _)) (fun _ _ _ _ _ _ _ _ => trivial)
        (fun _ _ _ _ _ _ _ _ => trivial) smr tim (fun p e cut e1 => absurd e1 (g1 _ _ _))
  cases a with
  | start p e cut =>
    have hsl : (p.list.map Node.address).contains addr = true → StartList (T := T) lists B' e p := by
      intro hli
      have hgi := ok6.2 hli
      simp only [StartOk, hli, if_true] at ok3
      split at ok3
      · rename_i hn
        rw [hn] at hgi
        exact .inl ⟨ok3, hgi⟩
      · rename_i w hw
        rw [hw] at hgi
        obtain ⟨_, b, e1, e2⟩ := ok3
        refine .inr ⟨w, b, e1, e2, hgi, ?_⟩
        have hm : w ∈ obsSaves (Overlord.obs n.log) := by
          unfold lastSaved at hw; rw [savedOf_obs] at hw; exact List.mem_of_getLast? hw
        exact h.obs _ (mem_obsSaves hm)
    obtain ⟨⟨g1, g2⟩, g3⟩ := start_gen (V := V') hsl ok5 ok4 ok6.1
    have haddr : (runArm .start e ⟨(State.new addr p.initHeight p.interval p.list : State T), []⟩).2.st.address = addr :=
      arm_state_inv (e := e) (i := .start) (P := fun s => s.address = addr) rfl fun _ _ _ h hm => (micro_address hm).trans h
    have hlg : n'.log = n.log ++ cutTo cut (runArm .start e ⟨State.new addr p.initHeight p.interval p.list, []⟩).2.log := by
      obtain ⟨_, hc⟩ := start_act ha
      rcases hc with ⟨_, h2⟩ | ⟨_, h2, h3, _⟩
      · exact h2
      · rw [h2]; exact h3
    refine ⟨?_, ?_, ?_⟩
    · rw [hlg, obs_append]
      obtain ⟨k', hk'⟩ := obs_cut cut (runArm .start e ⟨(State.new addr p.initHeight p.interval p.list : State T), []⟩).2.log
      intro o ho
      rw [hk'] at ho
      rcases List.mem_append.1 ho with ho | ho
      · exact h.obs o ho
      · exact g3 o (List.mem_of_mem_take ho)
    · rw [hlg]
      intro x hx
      rcases List.mem_append.1 hx with hx | hx
      · exact h.log x hx
      · exact g2 x (by
          cases cut with
          | none => exact hx
          | some k => exact List.mem_of_mem_take hx)
    · refine Preds.act h.up ha (fun _ _ _ _ e1 => by cases e1) (fun _ _ _ _ _ _ _ _ => trivial)
        (fun _ _ _ _ _ _ _ _ => trivial) smr tim ?_
      intro p' e' cut' heq
      cases heq
      refine ⟨smrOk_init, ⟨g1, haddr⟩, fun y hy => ?_⟩
      have hy2 := g2 y hy
      cases y with
      | trigger t =>
        refine ⟨hy2, fun hw w l h1 h2 => ?_⟩
        obtain ⟨s1, eff, s2, hpw, hm, hxe⟩ := arm_effect (P := fun s : State T => s.consensusPower = true →
            True) (fun _ => trivial) (fun _ _ _ _ _ _ => trivial) hy
        cases hm with
        | walLost hi =>
          simp only [List.mem_singleton, Effect.trigger.injEq] at hxe
          subst hxe
          simp only [walTrig, Option.some.injEq] at h1
          subst h1; cases h2
        | walTrigger wr b hi hl hd hc hh hr =>
          simp only [List.mem_singleton, Effect.trigger.injEq] at hxe
          subst hxe
          simp only [walTrig, Option.some.injEq] at h1
          subst h1
          obtain ⟨lk, e1, rfl⟩ := Option.map_eq_some_iff.1 h2
          -- a trigger from a record is only sent by a validator
          have hli : (p.list.map Node.address).contains addr = true := by
            cases hcn : (p.list.map Node.address).contains addr with
            | true => rfl
            | false =>
              have hpow : (State.new addr p.initHeight p.interval p.list : State T).consensusPower = false := by rw [new_power, hcn]
              have o := start_out e (State.new addr p.initHeight p.interval p.list : State T)
              exfalso
              cases o with
              | idle hw' _ => rw [hw'] at hy; cases hy
              | _ => simp_all
          rcases hsl hli with ⟨e2, _⟩ | ⟨w', b', e2, e3, _, e5, _⟩
          · rw [hl] at e2; cases e2
          · rw [hl] at e2; cases e2
            rw [hd] at e3; cases e3
            obtain ⟨k1, k2, k3, _⟩ := e5 lk e1
            obtain ⟨k4, k5⟩ := k3 hc
            unfold QcIn at k1
            rw [k4, k2, k5] at k1
            exact k1
        | trigQcId r ty qc =>
          simp only [List.mem_singleton, Effect.trigger.injEq] at hxe
          subst hxe; cases hv : qc.voteType <;> simp [stTrigger, VoteType.toTrigger, hv] at hw
        | trigQcHash h ty qc =>
          simp only [List.mem_singleton, Effect.trigger.injEq] at hxe
          subst hxe; cases ty <;> simp [stTrigger, VoteType.toTrigger] at hw
        | enterRound => split at hxe <;> simp at hxe
        | castVote => split at hxe <;> simp at hxe
        | _ =>
          exfalso
          (simp only [List.cons_append, List.mem_cons, List.mem_append, List.mem_map, List.not_mem_nil, or_false, reduceCtorEq, false_or,
            and_false, exists_false, Effect.trigger.injEq] at hxe) <;>
          (subst hxe; simp [stTrigger] at hw)
      | _ => trivial
  | arm x e cut =>
    cases hd : n.down with
    | true => simp [NodeSys.act, hd] at ha
    | false =>
    obtain ⟨hst, hadr⟩ := (h.up hd).st
    obtain ⟨hst0, _⟩ := (h0.up hd).st
    simp only [NodeSys.act, hd, Bool.false_eq_true, if_false] at ha
    split at ha
    · cases ha
    · rename_i i n1 ht
      cases ha
      obtain ⟨hi, e1, e2, e3, e4⟩ := take_spec ht
      obtain ⟨p1, p2⟩ := Preds.take (h.up hd) ht
      obtain ⟨p3, _⟩ := Preds.take (h0.up hd) ht
      have hlog : (n1.took cut (runArm i e ⟨n.st, []⟩)).log = n.log ++ cutTo cut (runArm i e ⟨n.st, []⟩).2.log := by
        rw [← e1]; rfl
      have hig0 : InGen lists V B n.st i := by
        cases i with
        | verified m =>
          obtain ⟨rfl, _⟩ := p1
          simp only [NodeSys.take] at ht
          split at ht
          · cases ht
          · rename_i m' q hq
            simp only [Option.some.injEq, Prod.mk.injEq, Input.verified.injEq] at ht
            obtain ⟨rfl, _⟩ := ht
            exact fun hm => hin e cut rfl _ q hq hm
        | event ev => exact p3.2
        | _ => trivial
      have hig : InGen lists V' B' n.st i := by
        cases i with
        | verified m => exact fun hm => MsgGen.mono hV hB (hig0 hm)
        | event ev => exact EvOk.mono hB hig0
        | _ => trivial
      have hvv : ∀ sv ∈ votesOf (cutTo cut (runArm i e ⟨n.st, []⟩).2.log), V' sv := by
        intro sv hsv
        refine hvs _ hlog sv hsv ?_
        rw [votes_own hi sv (votesOf_cut hsv), hadr]
      have hne : ∀ x, i = .event (.commit x) → x ≠ [] := by
        intro z hz; subst hz; exact hig
      have hob := arm_obs (e := e) hi hst.store hst.reason hne
      refine ⟨?_, ?_, fun hup => ?_⟩
      · obtain ⟨k', hk'⟩ := obs_cut cut (runArm i e ⟨n.st, []⟩).2.log
        intro o ho
        rw [hlog, obs_append, hk'] at ho
        rcases List.mem_append.1 ho with ho | ho
        · exact h.obs o ho
        · exact hob o (List.mem_of_mem_take ho)
      · intro y hy
        rw [hlog] at hy
        rcases List.mem_append.1 hy with hy | hy
        · exact h.log y hy
        · exact arm_gen_cut hgl hcnt hi hst hig ok5 ok4 ok6 cut hvv y hy
      · obtain ⟨rfl, hr⟩ := took_up hup
        obtain ⟨g1, g2⟩ := arm_gen hgl hcnt (e := e) hi hst hig ok5 ok4 ok6 hvv
        refine Preds.absorb p2 ⟨g1, ?_⟩ fun y hy => ?_
        · exact arm_state_inv (e := e) (i := i) (P := fun s => s.address = addr) hadr fun _ _ _ h hm => (micro_address hm).trans h
        · have := g2 y hy
          cases y with
          | trigger t =>
            exact ⟨this, fun hw => absurd hw (arm_notWal hi hy)⟩
          | _ => trivial
  | _ => exact other (by simp) (by simp)

/-- What is known about a network. -/
structure NetGen (lists : Nat → List Node) (correct : Address → Bool) (N : NetSys T) : Prop where
  mine : ∀ a v, (a, v) ∈ N.votes ↔ ∃ sv ∈ votesOf (N.nodes a).log, sv.vote = v
  gen : ∀ a, correct a = true → GenNode lists (SentVote correct N.votes) (Certified lists correct N.votes) a (N.nodes a)

theorem netGen_new (lists : Nat → List Node) (correct : Address → Bool) : NetGen lists correct (NetSys.new : NetSys T) := by
  refine ⟨?_, fun a _ => ⟨?_, ?_, ?_⟩⟩
  · intro a v; simp [NetSys.new, NodeSys.new, NodeSys.fresh, votesOf]
  · simp [NetSys.new, NodeSys.new, NodeSys.fresh]
  · simp [NetSys.new, NodeSys.new, NodeSys.fresh]
  · simp [NetSys.new, NodeSys.new, NodeSys.fresh]

/-- The history variable of the network holds the votes in the nodes' logs. -/
theorem mine_step {N N' : NetSys T} {a : Address} {x : NAct T}
    (h : ∀ a v, (a, v) ∈ N.votes ↔ ∃ sv ∈ votesOf (N.nodes a).log, sv.vote = v) (ha : N.act a x = some N') :
    ∀ a v, (a, v) ∈ N'.votes ↔ ∃ sv ∈ votesOf (N'.nodes a).log, sv.vote = v := by
  unfold NetSys.act at ha
  split at ha
  · cases ha
  · rename_i n hn
    cases ha
    obtain ⟨l, hl⟩ := act_grows hn
    have hdrop : n.log.drop (N.nodes a).log.length = l := by rw [hl, List.drop_left]
    rw [hdrop]
    intro b v
    simp only [List.mem_append, List.mem_map, Prod.mk.injEq]
    by_cases hb : b = a
    · subst hb
      simp only [if_true]
      rw [hl, votesOf_append]
      simp only [List.mem_append]
      rw [h b v]
      constructor
      · rintro (⟨sv, h1, h2⟩ | ⟨sv, h1, _, h2⟩)
        · exact ⟨sv, .inl h1, h2⟩
        · exact ⟨sv, .inr h1, h2⟩
      · rintro ⟨sv, h1 | h1, h2⟩
        · exact .inl ⟨sv, h1, h2⟩
        · exact .inr ⟨sv, h1, trivial, h2⟩
    · simp only [if_neg hb]
      rw [h b v]
      constructor
      · rintro (h1 | ⟨sv, _, h1, _⟩)
        · exact h1
        · exact absurd h1.symm hb
      · exact .inl

theorem netGen_step {lists : Nat → List Node} {correct : Address → Bool} (hgl : GoodLists lists)
    {N N' : NetSys T} {a : Address} {x : NAct T} (h : NetGen lists correct N) (ok : correct a = true → GenStep lists correct N a x)
    (ha : N.act a x = some N') : NetGen lists correct N' := by
  have hmine := mine_step h.mine ha
  refine ⟨hmine, ?_⟩
  unfold NetSys.act at ha
  split at ha
  · cases ha
  · rename_i n hn
    cases ha
    have hsub : ∀ y ∈ N.votes, y ∈ N.votes ++ (votesOf (n.log.drop (N.nodes a).log.length)).map fun sv => (a, sv.vote) :=
      fun y hy => List.mem_append_left _ hy
    have hV : ∀ v, SentVote correct N.votes v → SentVote correct (N.votes ++ (votesOf (n.log.drop (N.nodes a).log.length)).map fun sv => (a, sv.vote)) v :=
      fun v hv hc => hsub _ (hv hc)
    have hB : ∀ ty k r y, Certified lists correct N.votes ty k r y →
        Certified lists correct (N.votes ++ (votesOf (n.log.drop (N.nodes a).log.length)).map fun sv => (a, sv.vote)) ty k r y :=
      fun _ _ _ _ hc => Certified.mono hsub hc
    intro b hb
    by_cases hba : b = a
    · subst hba
      simp only [if_true]
      have o := ok hb
      refine gen_step hgl hV hB (counts_certified _ _ _) (h.gen b hb) ⟨o.start, o.answers, o.saves, o.given⟩ ?_ hn ?_
      · intro e cut hx m q hq hm
        subst hx
        exact genuine_gen (o.genuine m q hq hm)
      · intro l hl sv hsv hvt hcc
        rw [hvt]
        refine List.mem_append_right _ (List.mem_map.2 ⟨sv, ?_, rfl⟩)
        rw [hl, List.drop_left]; exact hsv
    · simp only [if_neg hba]
      exact (h.gen b hb).mono hV hB

theorem netGen_run {lists : Nat → List Node} {correct : Address → Bool} (hgl : GoodLists lists) :
    ∀ (as : List (Address × NAct T)) (N N' : NetSys T), NetGen lists correct N →
      AlongNet (fun N a x => correct a = true → GenStep lists correct N a x) N as → N.run as = some N' → NetGen lists correct N' := by
  intro as
  induction as with
  | nil => intro N N' h _ hr; simp only [NetSys.run, Option.some.injEq] at hr; exact hr ▸ h
  | cons y as ih =>
    obtain ⟨a, x⟩ := y
    intro N N' h ok hr
    simp only [NetSys.run] at hr
    split at hr
    · cases hr
    · rename_i N1 h1
      exact ih N1 N' (netGen_step hgl h ok.1 h1) (ok.2 N1 h1) hr

end Overlord
