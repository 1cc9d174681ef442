import Verif.Proofs.ReadyArm

/-!
What an order refers to is stored when the State takes it up (used for C53): the steps of a node and of a network.
-/

set_option linter.unusedSimpArgs false
set_option linter.unusedVariables false
set_option linter.unusedSectionVars false
set_option linter.unnecessarySeqFocus false

namespace Overlord
open M Spec

variable {T : Type} [ContentCodec T] [DecidableEq T]

namespace Rdy

/-- What the channels of a node refer to is stored in the State `s`. -/
def readyPreds (f : Hash → Nat × T) (B : Certs) (s : State T) : Preds T where
  st := StFits f (fun _ => True)
  smr := SReady f B s
  trig := fun t => t.source = .state ∨ t.walInfo ≠ none → TR f B s t
  ev := EReady f B s
  msg := FitsMsg f
  ver := fun m _ => FitsMsg f m
  chk := fun k _ x b => CReady s k x ∧ f x = (k, b)
  resp := RReady f s

theorem readyPreds_mono {f : Hash → Nat × T} {B B' : Certs} {s s' : State T} {n : NodeSys T}
    (hB : ∀ ty k r x, B ty k r x → B' ty k r x) (hk : Keeps s s') (h : (readyPreds f B s).Holds n) : (readyPreds f B' s').Holds n :=
  h.mono (fun _ h => h) (fun _ h => SReady.keeps hB hk h) (fun _ h e => TR.keeps hB hk (h e)) (fun _ h => EReady.keeps hB hk h)
    (fun _ h => h) (fun _ _ h => h) (fun _ _ _ _ h => ⟨h.1.keeps hk, h.2⟩) (fun _ h => RReady.keeps hk h)

/-- What is known about a correct node. -/
structure NodeReady (f : Hash → Nat × T) (B : Certs) (n : NodeSys T) : Prop where
  log : ∀ x ∈ n.log, EffFits f (fun _ => True) x
  up : n.down = false → StReady f n.st ∧ (readyPreds f B n.st).Holds n

theorem NodeReady.mono {f : Hash → Nat × T} {B B' : Certs} {n : NodeSys T} (hB : ∀ ty k r x, B ty k r x → B' ty k r x)
    (h : NodeReady f B n) : NodeReady f B' n := ⟨h.log, fun hd => ⟨(h.up hd).1, readyPreds_mono hB (.refl _) (h.up hd).2⟩⟩

/-- Certificates that can exist are for blocks of their height. -/
def BFits (f : Hash → Nat × T) (B : Certs) : Prop := ∀ ty k r x, B ty k r x → x ≠ [] → (f x).1 = k

theorem ready_step {f : Hash → Nat × T} {lists : Nat → List Node} {V V' : SignedVote → Prop} {B B' : Certs} {addr : Address}
    {n n' : NodeSys T} {a : NAct T} (hB : ∀ ty k r x, B ty k r x → B' ty k r x) (hfit : BFits f B')
    (h0 : NodeReady f B n) (hg : GenNode lists V B addr n) (hg' : GenNode lists V' B' addr n') (ok : CheckOk f n a)
    (hU : ∀ r, HasChoke n'.st r → r < 2 ^ 64) (ha : n.act addr a = some n') : NodeReady f B' n' := by
  have h := h0.mono hB
  obtain ⟨ok1, ok2, ok3⟩ := ok
  have tim : ∀ s ty k r, (readyPreds f B' s).trig (timeoutTrigger ty k r) := by
    intro s ty k r hh
    simp [timeoutTrigger] at hh
  have other : n'.st = n.st → n'.log = n.log → (∀ p e cut, a ≠ .start p e cut) → (∀ x e cut, a ≠ .arm x e cut) → (n'.down = false → n.down = false) →
      NodeReady f B' n' := by
    intro e1 e2 g1 g2 g3
    refine ⟨by rw [e2]; exact h.log, fun hup => ?_⟩
    rw [e1]
    refine ⟨(h.up (g3 hup)).1, Preds.act (P := readyPreds f B' n.st) (fun hd => (h.up hd).2) ha (fun x e cut i e1 => absurd e1 (g2 _ _ _))
      (fun _ _ _ _ _ _ h _ => h) ?_ (ready_smr (by rw [← e1]; exact hU)) (tim _) (fun p e cut e1 => absurd e1 (g1 _ _ _)) hup⟩
    intro i k r x b _ _ hc
    exact ⟨hc.1, by rw [hc.2]⟩
  cases a with
  | start p e cut =>
    obtain ⟨hd, hcase⟩ := start_act ha
    have hsv : ∀ b (w : WalInfo T), e.walLoad = some (some b) → decWalInfo b = .ok w → Effect.saveWal w true ∈ n.log := by
      intro b w h1 h2
      have := ok3 b w h1 h2
      obtain ⟨x, hx, he⟩ := List.mem_filterMap.1 this
      split at he
      · cases he; exact hx
      · cases he
    have hw : ∀ b (w : WalInfo T), e.walLoad = some (some b) → decWalInfo b = .ok w → RecFits f (fun _ => True) w :=
      fun b w h1 h2 => h.log _ (hsv b w h1 h2) rfl
    have hw2 : ∀ b (w : WalInfo T), e.walLoad = some (some b) → decWalInfo b = .ok w → RecGen B' w :=
      fun b w h1 h2 => ((hg.mono (fun _ h => h) hB).obs (.save w) (List.mem_filterMap.2 ⟨_, hsv b w h1 h2, rfl⟩)).1
    obtain ⟨g1, g2⟩ := start_fits (addr := addr) (p := p) hw ok2
    refine ⟨?_, fun hup => ?_⟩
    · intro x hx
      rcases hcase with ⟨_, hl⟩ | ⟨_, _, hl, _⟩
      · rw [hl] at hx
        rcases List.mem_append.1 hx with hx | hx
        · exact h.log x hx
        · exact g2 x (cut_mem hx)
      · rw [hl] at hx
        rcases List.mem_append.1 hx with hx | hx
        · exact h.log x hx
        · exact g2 x hx
    · have hst : n'.st = (runArm .start e ⟨(State.new addr p.initHeight p.interval p.list : State T), []⟩).2.st := by
        rcases hcase with ⟨h', _⟩ | ⟨_, _, _, heq⟩
        · rw [hup] at h'; cases h'
        · rw [heq]
          have : ∀ (ts : List SMRTrigger) (n : NodeSys T), (n.drain ts).st = n.st := by
            intro ts
            induction ts with
            | nil => intro n; rfl
            | cons t ts ih =>
              intro n
              simp only [NodeSys.drain]
              split
              · rw [ih]
              · rw [ih]
              · rfl
              · rfl
          unfold NodeSys.started
          rw [this]
      rw [hst]
      refine ⟨start_stReady, ?_⟩
      refine Preds.act (P := readyPreds f B' (runArm .start e ⟨(State.new addr p.initHeight p.interval p.list : State T), []⟩).2.st)
        (fun hd' => by rw [hd] at hd'; cases hd') ha (fun _ _ _ _ e1 => by cases e1) (fun _ _ _ _ e1 => by cases e1)
        (fun _ _ _ _ _ e1 => by cases e1) (ready_smr (by rw [← hst]; exact hU)) (tim _) ?_ hup
      intro p' e' cut' heq
      cases heq
      refine ⟨⟨Nat.zero_le _, fun l hl => by cases hl⟩, g1, fun y hy => ?_⟩
      cases y with
      | trigger t => exact fun _ => start_ready (fun _ b rec h1 h2 => ⟨hw2 b rec h1 h2, hw b rec h1 h2⟩) t hy
      | toVerified m => exact g2 _ hy
      | spawnVerify m a => exact g2 _ hy
      | spawnCheck k r x b => exact absurd hy start_nocheck
      | _ => trivial
  | crash =>
    simp only [NodeSys.act, Option.some.injEq] at ha
    subst ha
    exact ⟨h.log, by simp⟩
  | arm x e cut =>
    cases hd : n.down with
    | true => simp [NodeSys.act, hd] at ha
    | false =>
    obtain ⟨hst, hpr⟩ := h.up hd
    simp only [NodeSys.act, hd, Bool.false_eq_true, if_false] at ha
    split at ha
    · cases ha
    · rename_i i n1 ht
      cases ha
      obtain ⟨hi, e1, e2, e3, e4⟩ := take_spec ht
      obtain ⟨p1, p2⟩ := Preds.take hpr ht
      have hlog : (n1.took cut (runArm i e ⟨n.st, []⟩)).log = n.log ++ cutTo cut (runArm i e ⟨n.st, []⟩).2.log := by
        rw [← e1]; rfl
      have hin : InFits f (fun _ => True) i := by
        cases i with
        | raw m =>
          have p1 : x = .raw m := p1
          subst p1
          show FitsMsg f m
          cases m <;> try trivial
          exact ok1.1 _ rfl
        | verified m => exact p1.2
        | event ev => cases ev <;> trivial
        | resp r => trivial
        | start => trivial
      obtain ⟨g1, g2⟩ := arm_fits hi hpr.st hin ok1.2 ok2
      obtain ⟨r1, r2, r3⟩ := arm_ready (e := e) hi hst (by
        intro r hr
        subst hr
        exact p1.2)
      refine ⟨?_, fun hup => ?_⟩
      · intro y hy
        rw [hlog] at hy
        rcases List.mem_append.1 hy with hy | hy
        · exact h.log y hy
        · exact g2 y (cut_mem hy)
      · obtain ⟨rfl, hr⟩ := took_up hup
        refine ⟨r1, ?_⟩
        refine Preds.absorb (readyPreds_mono (fun _ _ _ _ h => h) r2 p2) g1 fun y hy => ?_
        cases y with
        | trigger t =>
          intro _
          have hin' : t ∈ (n1.took none (runArm i e ⟨n.st, []⟩)).sys.trigQ :=
            List.mem_append_right _ (mem_trigsOf.2 hy)
          have hc := ((hg'.up hup).trig t hin').1
          refine ⟨r3 _ hy, hc, fun hs hty hne => ?_, fun hw => absurd hw (arm_notWal hi hy)⟩
          rcases hty with hty | hty | hty
          · obtain ⟨r, b, hb⟩ := arm_paired t hy hty
            have : f t.hash = (t.height, b) := g2 _ hb
            rw [this]
          · exact hfit _ _ _ _ ((hc hs).2.1 hty) hne
          · exact hfit _ _ _ _ ((hc hs).2.2 hty) hne
        | toVerified m => exact g2 _ hy
        | spawnVerify m a => exact g2 _ hy
        | spawnCheck k r x b => exact ⟨r3 _ hy, g2 _ hy⟩
        | _ => trivial
  | verifyDone c i =>
    have ha0 := ha
    simp only [NodeSys.act] at ha
    split at ha
    · cases ha
    · split at ha
      · cases ha
      · cases ha; exact other rfl rfl (by simp) (by simp) (fun h => h)
  | checkDone i okb =>
    have ha0 := ha
    simp only [NodeSys.act] at ha
    split at ha
    · cases ha
    · split at ha
      · cases ha
      · cases ha; exact other rfl rfl (by simp) (by simp) (fun h => h)
  | smr =>
    have ha0 := ha
    simp only [NodeSys.act] at ha
    split at ha
    · cases ha
    · split at ha
      · cases ha
      · split at ha
        · cases ha
        · cases ha; exact other rfl rfl (by simp) (by simp) (fun h => h)
  | set =>
    have ha0 := ha
    simp only [NodeSys.act] at ha
    split at ha
    · cases ha
    · obtain ⟨sys, hsys, rfl⟩ := Option.map_eq_some_iff.1 ha
      exact other rfl rfl (by simp) (by simp) (fun h => h)
  | expire i =>
    have ha0 := ha
    simp only [NodeSys.act] at ha
    split at ha
    · cases ha
    · obtain ⟨sys, hsys, rfl⟩ := Option.map_eq_some_iff.1 ha
      exact other rfl rfl (by simp) (by simp) (fun h => h)
  | fire i =>
    have ha0 := ha
    simp only [NodeSys.act] at ha
    split at ha
    · cases ha
    · obtain ⟨sys, hsys, rfl⟩ := Option.map_eq_some_iff.1 ha
      exact other rfl rfl (by simp) (by simp) (fun h => h)

/-- A released vote is for a block of its height. -/
theorem votes_fit {f : Hash → Nat × T} {B : Certs} {addr : Address} {n n' : NodeSys T} {a : NAct T} (h : NodeReady f B n)
    (hs : InSync n a) (ha : n.act addr a = some n') (l : List (Effect T)) (hl : n'.log = n.log ++ l) :
    ∀ sv ∈ votesOf l, sv.vote.blockHash ≠ [] → (f sv.vote.blockHash).1 = sv.vote.height := by
  intro sv hsv hne
  rcases act_log ha with ⟨e1, _⟩ | ⟨i, e, cut, s, e1, e2, ⟨hd, es, hi, x, n1, ht, e3⟩ | ⟨_, rfl, p, e3, e4⟩⟩
  · rw [hl] at e1
    have : l = [] := by simpa using e1
    subst this; cases hsv
  · subst es
    have hl' : l = cutTo cut (runArm i e ⟨n.st, []⟩).2.log := List.append_cancel_left (hl.symm.trans e1)
    rw [hl'] at hsv
    have hsv := votesOf_cut hsv
    rw [votesOf_obs] at hsv
    obtain ⟨_, _, _, _, e4⟩ := take_spec ht
    have p1 := (Preds.take (h.up hd).2 ht).1
    cases arm_out e n.st i hi with
    | quiet q1 => rw [q1] at hsv; cases hsv
    | status st hst o => rw [← votesOf_obs, moves_votes o] at hsv; cases hsv
    | event ev hev hp o =>
      subst hev
      rcases e4 with ⟨_, e4⟩ | ⟨rfl, ev', e5, hq⟩
      · exact absurd rfl (e4 ev)
      cases e5
      subst e3
      have hsync := hs ev n1.stQ
      generalize (runArm (.event ev) e ⟨n.st, []⟩).2 = w at *
      cases o with
      | newRound h0 r lr lp f ni nc o =>
        rcases o.out with ho | ⟨lock, u, hl, ho⟩ <;> rw [ho] at hsv <;> cases hsv
      | prevote h0 r hash lr o =>
        have hk := hsync h0 hq rfl
        rcases o.out with ho | ⟨lock, sv', hl, hv, hvv, ho⟩ <;> rw [ho] at hsv
        · cases hsv
        · simp [obsVotes] at hsv
          subst hsv
          rw [hv] at hne ⊢
          rw [p1.2.2.1 hne]; exact hk
      | precommit h0 r hash lr o =>
        have hk := hsync h0 hq rfl
        rcases o.out with ho | ⟨lock, sv', hl, hv, hvv, ho⟩ <;> rw [ho] at hsv
        · cases hsv
        · simp [obsVotes] at hsv
          subst hsv
          rw [hv] at hne ⊢
          rw [p1.2.2.1 hne]; exact hk
      | commit hash o => rw [← votesOf_obs, commit_votes o] at hsv; cases hsv
      | brake r lr o =>
        rcases o.out with ho | ⟨lock, hl, ho⟩ <;> rw [ho] at hsv <;> cases hsv
      | stale h0 r lr hh hw => rw [hw] at hsv; cases hsv
      | stop hw => rw [hw] at hsv; cases hsv
  · have hl' : l = cutTo cut (runArm .start e ⟨s, []⟩).2.log := List.append_cancel_left (hl.symm.trans e1)
    rw [hl'] at hsv
    have hsv := votesOf_cut hsv
    rw [start_votes (start_out e s)] at hsv
    cases hsv

end Rdy
end Overlord
