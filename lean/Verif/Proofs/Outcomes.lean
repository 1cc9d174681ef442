import Verif.Proofs.ArmRun
import Verif.Props.State4

/-! What every arm does, seen from outside: votes released, records saved, calls of `commit`, moves. -/

set_option linter.unusedSimpArgs false
set_option linter.unusedVariables false
set_option linter.unusedSectionVars false
set_option linter.unnecessarySeqFocus false

namespace Overlord
open M Spec

/-- What is followed: votes released, records saved, calls of `commit`, new heights told to the voting state
machine. -/
inductive Obs (T : Type) where
  | vote (v : SignedVote)
  | save (w : WalInfo T)
  | call (k : Nat) (c : Commit T) (r : Option Status)
  | high (st : SMRStatus)

/-- See `Obs`. -/
def obsOf {T : Type} : Effect T → Option (Obs T)
  | .saveWal w true => some (.save w)
  | .commitCall k c r => some (.call k c r)
  | .trigger t =>
    match t.triggerType with
    | .newHeight st => some (.high st)
    | _ => none
  | x => (releasedVote x).map .vote

variable {T : Type}

/-- All observations of a list of effects. -/
def obs (l : List (Effect T)) : List (Obs T) := l.filterMap obsOf

theorem obs_append (l l' : List (Effect T)) : obs (l ++ l') = obs l ++ obs l' := by simp [obs]

@[simp] theorem obs_nil : obs ([] : List (Effect T)) = [] := rfl

theorem obs_quiet {l : List (Effect T)} (h : ∀ x ∈ l, obsOf x = none) : obs l = [] := by
  unfold obs
  rw [List.filterMap_eq_nil_iff]
  exact h

/-- The part of the state that the followed effects depend on does not change. -/
structure SamePos (s s' : State T) : Prop where
  height : s'.height = s.height
  power : s'.consensusPower = s.consensusPower
  address : s'.address = s.address

theorem SamePos.refl (s : State T) : SamePos s s := ⟨rfl, rfl, rfl⟩
theorem SamePos.trans {s s1 s2 : State T} (h : SamePos s s1) (h' : SamePos s1 s2) : SamePos s s2 :=
  ⟨h'.height.trans h.height, h'.power.trans h.power, h'.address.trans h.address⟩

section
variable [ContentCodec T] [DecidableEq T]

theorem wp_ok {α : Type} {m : M T α} {e : Env T} {w : World T} {Q : α → World T → Prop} {E : Err → World T → Prop}
    (h : wp m e w Q E) {a : α} (hr : (m e w).1 = .ok a) : Q a (m e w).2 := by
  rcases wp_exists h with ⟨b, h1, h2⟩ | ⟨x, h1, h2⟩
  · rw [h1] at hr; cases hr; exact h2
  · rw [h1] at hr; cases hr

/-- An event arm of a powered, running State runs the handler. -/
theorem event_post {e : Env T} {s : State T} {ev : SMREvent} {P : World T → Prop}
    (hp : s.consensusPower = true) (hs : s.stopped = false)
    (h : wp (handleEvent ev) e ⟨s, []⟩ (fun _ => P) (fun _ => P)) : P (runArm (.event ev) e ⟨s, []⟩).2 := by
  apply wp_post
  unfold runArm
  wps
  simp only [hs, hp, Bool.false_eq_true, Bool.true_eq_false, false_implies, not_false_eq_true, true_implies, true_and]
  exact wp_mono h (fun _ _ h => h) (fun x w h => ⟨fun _ => h, fun _ => h⟩)

/-- A State that has stopped or has no power does nothing for an event. -/
theorem event_idle {e : Env T} {s : State T} {ev : SMREvent} (h : s.consensusPower = false ∨ s.stopped = true) :
    (runArm (.event ev) e ⟨s, []⟩).2 = ⟨s, []⟩ := by
  apply wp_post (P := fun w => w = ⟨s, []⟩)
  unfold runArm
  wps
  refine ⟨fun _ => trivial, fun h1 => ⟨fun _ => trivial, fun h2 => ?_⟩⟩
  rcases h with h | h
  · exact absurd h h2
  · exact absurd h h1

/-- Inputs that never move the node nor make it vote. -/
def QuietInput (i : Input T) : Prop :=
  (∃ m, i = .raw m) ∨ (∃ r, i = .resp r) ∨ (∃ m, i = .verified m ∧ m.isRichStatus = false)

theorem quiet_micro {e : Env T} {i : Input T} {s s' : State T} {eff : List (Effect T)}
    (hi : QuietInput i) (hm : Micro e i s eff s') :
    obs eff = [] ∧ SamePos s s' ∧ s'.round = s.round := by
  unfold QuietInput at hi
  have nostart : i ≠ .start := by rintro rfl; simp at hi
  have noevent : ∀ ev, i ≠ .event ev := by rintro ev rfl; simp at hi
  have nostatus : ∀ st, i ≠ .verified (.richStatus st) := by
    rintro st rfl; simp [OverlordMsg.isRichStatus] at hi
  have nomove : ∀ st, ¬ (i = .verified (.richStatus st) ∨ i = .start ∨ ∃ h, i = .event (.commit h)) := by
    rintro st (h | h | ⟨h, h'⟩)
    · exact nostatus _ h
    · exact nostart h
    · exact noevent _ h'
  have nonr : ∀ {r lr lp f}, ¬ NewRoundInput i r lr lp f := by
    rintro r lr lp f ⟨h, ni, nc, h'⟩; exact noevent _ h'
  have nov : ∀ {ty h lr}, ¬ VoteInput i ty h lr := by
    rintro ty h lr ⟨h', r, h''⟩; exact noevent _ h''
  have qtrig : ∀ (ty : VoteType) a b c d, obsOf (T := T) (.trigger (stTrigger ty.toTrigger a b c d)) = none := by
    intro ty a b c d; cases ty <;> rfl
  cases hm with
  | genQc => exact ⟨rfl, ⟨rfl, rfl, rfl⟩, rfl⟩
  | trigQcId r ty qc => exact ⟨by simp [obs, qtrig], ⟨rfl, rfl, rfl⟩, rfl⟩
  | trigQcHash h ty qc => exact ⟨by simp [obs, qtrig], ⟨rfl, rfl, rfl⟩, rfl⟩
  | enterRound round lr lp f h => exact absurd h nonr
  | setFrom u round lr lp f h => exact absurd h nonr
  | wal step lr lock ok _ _ h =>
    rcases h with ⟨_, r, lp, f, h, _⟩ | ⟨_, ⟨ty, hh, h, _⟩ | ⟨_, ⟨hh, r, h⟩ | h⟩⟩
    · exact absurd h nonr
    · exact absurd h nov
    · exact absurd h (noevent _)
    · exact absurd h nostart
  | leader p b h => obtain ⟨r, lr, lp, f, h⟩ := h; exact absurd h nonr
  | askBlock h => obtain ⟨r, lp, f, h⟩ := h; exact absurd h nonr
  | ownBlock hash block h => obtain ⟨r, lr, lp, f, h⟩ := h; exact absurd h nonr
  | propose sp r lr lp f h => exact absurd h nonr
  | castVote ty hash lr lock sv _ h => exact absurd h nov
  | ownChoke sc h => rcases h with ⟨a, b, c, h, _⟩ | h; exacts [absurd h (noevent _), absurd h nostart]
  | castChoke sc lr lock _ h => rcases h with ⟨a, b, h, _⟩ | h; exacts [absurd h (noevent _), absurd h nostart]
  | commit hash content qc _ h => rcases h with h | h; exacts [absurd h (noevent _), absurd h nostart]
  | move st h => exact absurd h (nomove _)
  | moveLost st _ h => exact absurd h (nomove _)
  | adopt st _ h => exact absurd h (nomove _)
  | walLost h => exact absurd h nostart
  | restorePos _ _ h => exact absurd h nostart
  | restoreLeader _ _ h => exact absurd h nostart
  | restoreFrom _ _ h => exact absurd h nostart
  | restoreLock _ _ _ h => exact absurd h nostart
  | walTrigger _ _ h => exact absurd h nostart
  | _ => exact ⟨rfl, ⟨rfl, rfl, rfl⟩, rfl⟩

theorem quiet_runs {e : Env T} {i : Input T} {w w' : World T} (hi : QuietInput i) (h : Runs e i w w') :
    ∃ l, w'.log = w.log ++ l ∧ obs l = [] ∧ SamePos w.st w'.st ∧ w'.st.round = w.st.round := by
  induction h with
  | refl => exact ⟨[], by simp, rfl, .refl _, rfl⟩
  | step h hm ih =>
    obtain ⟨l, h1, h2, h3, h4⟩ := ih
    obtain ⟨g1, g2, g3⟩ := quiet_micro hi hm
    exact ⟨l ++ _, by rw [h1, List.append_assoc], by rw [obs_append, h2, g1]; rfl, h3.trans g2, g3.trans h4⟩

/-- Messages, block checks and their results: nothing followed happens. -/
theorem quiet_msg {e : Env T} {i : Input T} {s : State T} (hi : QuietInput i) :
    obs (runArm i e ⟨s, []⟩).2.log = [] ∧ SamePos s (runArm i e ⟨s, []⟩).2.st ∧
      (runArm i e ⟨s, []⟩).2.st.round = s.round := by
  obtain ⟨l, h1, h2, h3, h4⟩ := quiet_runs hi (runs_arm e i s)
  rw [h1]
  exact ⟨by simpa using h2, h3, h4⟩

/-- Nothing followed happens from here on. -/
def Calm (s : State T) (l : List (Effect T)) (w : World T) : Prop :=
  ∃ l', w.log = l ++ l' ∧ obs l' = [] ∧ SamePos s w.st ∧ w.st.round = s.round

theorem Calm.refl (s : State T) (l : List (Effect T)) : Calm s l ⟨s, l⟩ := ⟨[], by simp, rfl, .refl _, rfl⟩

theorem calm_walk {e : Env T} {i : Input T} {α : Type} {m : M T α} {s : State T} {l : List (Effect T)} (hi : QuietInput i)
    (h : Walks e i ⟨s, l⟩ m ⟨s, l⟩) : wp m e ⟨s, l⟩ (fun _ => Calm s l) (fun _ => Calm s l) :=
  wp_mono h (fun _ _ h => quiet_runs hi h) (fun _ _ h => quiet_runs hi h)

theorem calm_signedProposal {e : Env T} {s : State T} {l : List (Effect T)} {sp : SignedProposal T} :
    wp (handleSignedProposal sp) e ⟨s, l⟩ (fun _ => Calm s l) (fun _ => Calm s l) :=
  calm_walk (.inr (.inr ⟨.signedProposal sp, rfl, rfl⟩)) (walk_signedProposal .refl (.inl rfl))

theorem calm_voteProcess {e : Env T} {s : State T} {l : List (Effect T)} {ty : VoteType} :
    wp (voteProcess ty) e ⟨s, l⟩ (fun _ => Calm s l) (fun _ => Calm s l) := by
  let sv : SignedVote := ⟨[], ⟨s.height, s.round, ty, []⟩, []⟩
  refine calm_walk (i := .verified (.signedVote sv)) (.inr (.inr ⟨_, rfl, rfl⟩)) ?_
  unfold Walks voteProcess
  rw [wp_bind, wp_get, wp_ite]
  refine ⟨fun h1 => ?_, fun h1 => ?_⟩
  · split
    · rename_i qc hq
      wps
      exact ⟨fun _ => .refl, fun hf => Runs.stepTo .refl (.trigQcId s s.round ty qc hq ((Bool.not_eq_false _).mp hf)) rfl⟩
    · exact .refl
  · exact walk_genQc (ty := ty) (s0 := s) (k := fun qc => (s.round, s.height)) .refl
      (.inr ⟨sv, rfl, rfl, rfl⟩) rfl (fun _ _ _ => rfl)

/-- Only the chokes change. -/
def SameButChokes (s s' : State T) : Prop :=
  s'.votes = s.votes ∧ s'.hashWithBlock = s.hashWithBlock ∧ s'.updateFrom = s.updateFrom ∧
  s'.authority = s.authority ∧ s'.proposals = s.proposals ∧ s'.isLeader = s.isLeader ∧ s'.leaderAddress = s.leaderAddress

theorem checkChoke_trigs {e : Env T} {s : State T} {l : List (Effect T)} :
    wp checkChokeAboveThreshold e ⟨s, l⟩
      (fun _ w => SameButChokes s w.st ∧ (w.log = l ∨ ∃ r, w.log = l ++ [.trigger (stTrigger .continueRound [] none (inc64 r) s.height)] ∧
        ∃ qc, w.st.chokes.getQc r = some qc))
      (fun _ w => SameButChokes s w.st ∧ (w.log = l ∨ ∃ r, w.log = l ++ [.trigger (stTrigger .continueRound [] none (inc64 r) s.height)] ∧
        ∃ qc, w.st.chokes.getQc r = some qc)) := by
  unfold checkChokeAboveThreshold
  wps
  have h0 : SameButChokes s s := ⟨rfl, rfl, rfl, rfl, rfl, rfl, rfl⟩
  split
  · exact ⟨h0, .inl rfl⟩
  · wps [aggregateSignatures]
    exact ⟨fun _ => ⟨h0, .inl trivial⟩, fun _ => ⟨fun _ _ => ⟨fun _ _ => ⟨⟨rfl, rfl, rfl, rfl, rfl, rfl, rfl⟩, .inr ⟨_, rfl, _, by simp [ChokeCollector.getQc, ChokeCollector.setQc, AMap.get?_insert]; rfl⟩⟩, fun _ => ⟨h0, .inl trivial⟩⟩, fun _ => ⟨h0, .inl trivial⟩⟩⟩

theorem calm_checkChoke {e : Env T} {s : State T} {l : List (Effect T)} :
    wp checkChokeAboveThreshold e ⟨s, l⟩ (fun _ => Calm s l) (fun _ => Calm s l) := by
  let sc : SignedChoke := ⟨[], ⟨s.height, s.round, s.updateFrom⟩, []⟩
  exact calm_walk (i := .verified (.signedChoke sc)) (.inr (.inr ⟨_, rfl, rfl⟩))
    (walk_checkChoke .refl (.inl ⟨sc, rfl⟩))

/-- What entering a round does. -/
structure RoundOut (s : State T) (r : Nat) (lr : Option Nat) (w : World T) : Prop where
  same : SamePos s w.st
  round : w.st.round = r
  out : obs w.log = [] ∨ ∃ lock u, WalLockOf s lr lock ∧ obs w.log = [.save ⟨s.height, r, .propose, lock, u⟩]
  reason : ∀ x, .save x ∈ obs w.log → ∃ f, FromOf s f x.from

theorem wp_newRound {e : Env T} {s : State T} {r : Nat} {lr : Option Nat} {lp : Option Hash} {f : FromWhere} :
    wp (handleNewRound r lr lp f) e ⟨s, []⟩ (fun _ => RoundOut s r lr) (fun _ => RoundOut s r lr) := by
  have key : ∀ l' : List (Effect T), obs l' = [] →
      wp (do
        if lr.isSome ≠ lp.isSome then fail .proposalErr
        else
          setUpdateFrom f
          saveWalWithLockRound .propose lr
          if (← isProposer) = false then
            let s ← get
            match s.proposals.get s.height s.round with
            | .ok sp => handleSignedProposal sp
            | .error _ => pure ()
          else
            modify fun s => { s with isLeader := true }
            let (block, hash, polc) ← proposalParts lr lp
            modify fun s => { s with hashWithBlock :=
              match s.hashWithBlock.get? hash with
              | some _ => s.hashWithBlock
              | none => s.hashWithBlock.insert hash block }
            let s ← get
            let sp ← signProposal { height := s.height, round := s.round, content := block,
                                    blockHash := hash, lock := polc, proposer := s.address }
            broadcast (.signedProposal sp)
            emit (.trigger (stTrigger .proposal hash lr s.round s.height))
            checkBlock hash block) e ⟨{ s with round := r, isLeader := false }, l'⟩
        (fun _ => RoundOut s r lr) (fun _ => RoundOut s r lr) := by
    intro l' hl'
    have none0 : ∀ s' : State T, SamePos s s' → s'.round = r → RoundOut s r lr ⟨s', l'⟩ :=
      fun s' h1 h2 => ⟨h1, h2, .inl hl', by simp [hl']⟩
    rw [wp_ite]
    refine ⟨fun _ => none0 _ ⟨rfl, rfl, rfl⟩ rfl, fun hs => ?_⟩
    rw [wp_bind]
    refine wp_setUpdateFrom (fun _ => none0 _ ⟨rfl, rfl, rfl⟩ rfl) fun u hu => ?_
    rw [wp_bind]
    refine wp_saveWalLR (fun _ => none0 _ ⟨rfl, rfl, rfl⟩ rfl)
      (fun lock b hl e1 e2 => ⟨⟨rfl, rfl, rfl⟩, rfl, .inl (by rw [obs_append, hl']; rfl), by rw [obs_append, hl']; simp [obs, obsOf, releasedVote]⟩)
      (fun lock b hl e1 e2 => ?_)
    have hlk : WalLockOf s lr lock := hl
    have fin : ∀ (s' : State T) l2, SamePos s s' → s'.round = r → obs l2 = [] →
        RoundOut s r lr ⟨s', l' ++ [.saveWal (walRec { s with round := r, isLeader := false, updateFrom := u } .propose lock) true] ++ l2⟩ := by
      intro s' l2 h1 h2 h3
      have ho : obs (l' ++ [.saveWal (walRec { s with round := r, isLeader := false, updateFrom := u } .propose lock) true] ++ l2) =
          [.save ⟨s.height, r, .propose, lock, u⟩] := by
        rw [obs_append, obs_append, hl', h3]; rfl
      refine ⟨h1, h2, .inr ⟨lock, u, hlk, ho⟩, ?_⟩
      dsimp only
      rw [ho]
      intro x hx
      simp only [List.mem_singleton, Obs.save.injEq] at hx
      subst hx
      exact ⟨f, hu⟩
    have fin0 : ∀ (s' : State T), SamePos s s' → s'.round = r →
        RoundOut s r lr ⟨s', l' ++ [.saveWal (walRec { s with round := r, isLeader := false, updateFrom := u } .propose lock) true]⟩ := by
      intro s' h1 h2; simpa using fin s' [] h1 h2 rfl
    rw [wp_bind]
    refine wp_isProposer (fun _ => fin0 _ ⟨rfl, rfl, rfl⟩ rfl) fun p hp => ?_
    rw [wp_ite]
    refine ⟨fun hb => ?_, fun hb => ?_⟩
    · wps
      split
      · rename_i sp hsp
        refine wp_mono calm_signedProposal ?_ ?_ <;>
        · rintro _ ⟨st, lg⟩ ⟨l2, h1, h2, h3, h4⟩
          dsimp only at h1 h3 h4
          subst h1
          exact fin _ _ ⟨h3.1, h3.2, h3.3⟩ h4 h2
      · exact fin0 _ ⟨rfl, rfl, rfl⟩ rfl
    · have hb : p = s.address := by simpa using hb
      subst hb
      simp only [decide_true]
      wps
      unfold proposalParts
      cases lr with
      | none =>
        wps
        have h5 : RoundOut s r none ⟨_, _⟩ := fin { s with round := r, isLeader := true, updateFrom := u, leaderAddress := s.address }
          [.getBlock s.height (e.getBlock s.height)] ⟨rfl, rfl, rfl⟩ rfl rfl
        refine ⟨fun bh hbh => ?_, fun _ => h5⟩
        obtain ⟨block, hash⟩ := bh
        wps [signProposal, broadcast, checkBlock]
        refine ⟨fun b hb => ⟨fun sig hsig => ?_, fun _ => ?_⟩, fun _ => ?_⟩
        · have := fin { s with round := r, isLeader := true, updateFrom := u, leaderAddress := s.address,
                               hashWithBlock := match s.hashWithBlock.get? hash with
                                  | some _ => s.hashWithBlock
                                  | none => s.hashWithBlock.insert hash block }
            [.getBlock s.height (e.getBlock s.height),
            .broadcast (.signedProposal ⟨sig, ⟨s.height, r, block, hash, none, s.address⟩⟩),
            .trigger (stTrigger .proposal hash none r s.height), .spawnCheck s.height r hash block]
            ⟨rfl, rfl, rfl⟩ rfl rfl
          simpa using this
        · exact fin _ [.getBlock s.height (e.getBlock s.height)] ⟨rfl, rfl, rfl⟩ rfl rfl
        · exact fin _ [.getBlock s.height (e.getBlock s.height)] ⟨rfl, rfl, rfl⟩ rfl rfl
      | some k =>
        wps
        refine ⟨fun hash hlp => ⟨fun b hget => ?_, fun _ => fin0 _ ⟨rfl, rfl, rfl⟩ rfl⟩, fun _ => fin0 _ ⟨rfl, rfl, rfl⟩ rfl⟩
        split
        · rename_i qc hq
          wps [signProposal, broadcast, checkBlock, hget]
          refine ⟨fun b' hb => ⟨fun sig hsig => ?_, fun _ => fin0 _ ⟨rfl, rfl, rfl⟩ rfl⟩, fun _ => fin0 _ ⟨rfl, rfl, rfl⟩ rfl⟩
          have := fin { s with round := r, isLeader := true, updateFrom := u, leaderAddress := s.address }
            [.broadcast (.signedProposal ⟨sig, ⟨s.height, r, b, hash, some ⟨k, qc⟩, s.address⟩⟩),
            .trigger (stTrigger .proposal hash (some k) r s.height), .spawnCheck s.height r hash b]
            ⟨rfl, rfl, rfl⟩ rfl rfl
          simpa using this
        · exact fin0 _ ⟨rfl, rfl, rfl⟩ rfl
  unfold handleNewRound
  rw [wp_bind, wp_get]
  by_cases hr : r = INIT_ROUND
  · have := key [] rfl
    simp only [hr, ne_eq, not_true_eq_false, if_false] at this ⊢
    rw [wp_bind, wp_modify]
    exact this
  · have := key [.reportViewChange s.height s.round (s.viewChangeReason s.round f)] rfl
    simp only [hr, ne_eq, not_false_eq_true, if_true, reportViewChange]
    rw [wp_bind, wp_bind, wp_get, wp_emit, wp_bind, wp_modify]
    exact this

/-- What a vote event does. -/
structure VoteOut (s : State T) (ty : VoteType) (hash : Hash) (lr : Option Nat) (w : World T) : Prop where
  same : SamePos s w.st
  round : w.st.round = s.round
  out : obs w.log = [] ∨ ∃ lock sv, WalLockOf s lr lock ∧ sv.vote = ⟨s.height, s.round, ty, hash⟩ ∧
    sv.voter = s.address ∧ obs w.log = [.save (walRec s ty.toStep lock), .vote sv]

theorem wp_vote {e : Env T} {s : State T} {ty : VoteType} {hash : Hash} {lr : Option Nat} :
    wp (handleVoteEvent hash ty lr) e ⟨s, []⟩ (fun _ => VoteOut s ty hash lr) (fun _ => VoteOut s ty hash lr) := by
  unfold handleVoteEvent signVote
  wps
  refine ⟨fun sig hsig => ?_, fun _ => ⟨.refl _, rfl, .inl rfl⟩⟩
  refine wp_saveWalLR (fun _ => ⟨.refl _, rfl, .inl rfl⟩) (fun lock b hl e1 e2 => ⟨.refl _, rfl, .inl rfl⟩)
    (fun lock b hl e1 e2 => ?_)
  have fin : ∀ (s' : State T) l1 l2, SamePos s s' → s'.round = s.round → obs l2 = [] →
      obs l1 = [.vote ⟨sig, ⟨s.height, s.round, ty, hash⟩, s.address⟩] →
      VoteOut s ty hash lr ⟨s', [.saveWal (walRec s ty.toStep lock) true] ++ l1 ++ l2⟩ := by
    intro s' l1 l2 h1 h2 h3 h4
    refine ⟨h1, h2, .inr ⟨lock, ⟨sig, ⟨s.height, s.round, ty, hash⟩, s.address⟩, hl, rfl, rfl, ?_⟩⟩
    rw [obs_append, obs_append, h3, h4]; rfl
  refine ⟨fun hlead => ?_, fun hlead => ?_⟩
  · refine wp_mono calm_voteProcess ?_ ?_ <;>
    · rintro _ ⟨st, lg⟩ ⟨l2, h1, h2, h3, h4⟩
      dsimp only at h1 h3 h4
      subst h1
      exact fin _ _ _ ⟨h3.1, h3.2, h3.3⟩ h4 h2 rfl
  · unfold transmit
    wps
    refine wp_mono calm_voteProcess ?_ ?_ <;>
    · rintro _ ⟨st, lg⟩ ⟨l2, h1, h2, h3, h4⟩
      dsimp only at h1 h3 h4
      subst h1
      exact fin _ _ _ ⟨h3.1, h3.2, h3.3⟩ h4 h2 rfl

/-- What a brake does. -/
structure BrakeOut (s : State T) (lr : Option Nat) (w : World T) : Prop where
  same : SamePos s w.st
  round : w.st.round = s.round
  out : obs w.log = [] ∨ ∃ lock, WalLockOf s lr lock ∧ obs w.log = [.save (walRec s .brake lock)]
  trigs : ∀ t, .trigger t ∈ w.log → t.triggerType = .continueRound ∧ t.height = s.height
  keep : SameButChokes s w.st
  sends : ∀ m, .broadcast m ∈ w.log → ∃ sc, m = .signedChoke sc ∧ sc.choke = ⟨s.height, s.round, s.updateFrom⟩
  quiet : ∀ p m, .transmit p m ∉ w.log
  choke : ∀ t, .trigger t ∈ w.log → ∃ r qc, t.round = inc64 r ∧ w.st.chokes.getQc r = some qc

theorem wp_brake {e : Env T} {s : State T} {r : Nat} {lr : Option Nat} :
    wp (handleBrake r lr) e ⟨s, []⟩ (fun _ => BrakeOut s lr) (fun _ => BrakeOut s lr) := by
  unfold handleBrake
  wps
  have k0 : SameButChokes s s := ⟨rfl, rfl, rfl, rfl, rfl, rfl, rfl⟩
  refine ⟨fun _ => ⟨.refl _, rfl, .inl rfl, by simp, k0, by simp, by simp, by simp⟩, fun hr => ⟨fun sig hsig => ?_, fun _ => ⟨.refl _, rfl, .inl rfl, by simp, k0, by simp, by simp, by simp⟩⟩⟩
  refine wp_saveWalLR (fun _ => ⟨⟨rfl, rfl, rfl⟩, rfl, .inl rfl, by simp, ⟨rfl, rfl, rfl, rfl, rfl, rfl, rfl⟩, by simp, by simp, by simp⟩)
    (fun lock b hl e1 e2 => ⟨⟨rfl, rfl, rfl⟩, rfl, .inl rfl, by simp, ⟨rfl, rfl, rfl, rfl, rfl, rfl, rfl⟩, by simp, by simp, by simp⟩) (fun lock b hl e1 e2 => ?_)
  have hlk : WalLockOf s lr lock := hl
  unfold broadcast
  wps
  refine wp_mono (wp_and calm_checkChoke checkChoke_trigs) ?_ ?_ <;>
  · rintro _ ⟨st, lg⟩ ⟨⟨l2, h1, h2, h3, h4⟩, h6, h5⟩
    dsimp only at h1 h3 h4 h5
    refine ⟨⟨h3.1, h3.2, h3.3⟩, h4, .inr ⟨lock, hlk, ?_⟩, ?_, h6, ?_, ?_, ?_⟩
    · dsimp only
      rw [h1, obs_append, h2]; rfl
    · intro t ht
      rcases h5 with h5 | ⟨r, h5, qc, h7⟩
      · rw [h5] at ht; simp at ht
      · rw [h5] at ht; simp at ht; subst ht; exact ⟨rfl, rfl⟩
    · intro m hm
      rcases h5 with h5 | ⟨r, h5, qc, h7⟩ <;> rw [h5] at hm <;> simp at hm <;> subst hm <;> exact ⟨_, rfl, rfl⟩
    · intro p m hm
      rcases h5 with h5 | ⟨r, h5, qc, h7⟩ <;> rw [h5] at hm <;> simp at hm
    · intro t ht
      rcases h5 with h5 | ⟨r, h5, qc, h7⟩
      · rw [h5] at ht; simp at ht
      · rw [h5] at ht; simp at ht; subst ht; exact ⟨r, qc, rfl, h7⟩

/-- All outcomes of `goto_new_height`. -/
inductive Moves (e : Env T) (s : State T) (status : Status) : World T → Prop
  | stay (hh : status.height ≤ s.height) : Moves e s status ⟨s, []⟩
  | away (hh : s.height < status.height) (hp : status.isConsensusNode s.address = false) :
      Moves e s status ⟨s.moved status, []⟩
  | lost (hh : s.height < status.height) (hp : status.isConsensusNode s.address = true)
      (hs : Saved e (walRec (s.moved status) .propose none) false) :
      Moves e s status ⟨s.moved status, [.saveWal (walRec (s.moved status) .propose none) false]⟩
  | adopt (hh : s.height < status.height) (hp : status.isConsensusNode s.address = true)
      (hs : Saved e (walRec (s.moved status) .propose none) true) :
      Moves e s status ⟨s.adopted e.sh status,
        .saveWal (walRec (s.moved status) .propose none) true ::
          ((s.recheck e.sh status).map fun m => .spawnVerify m (Authority.update status.authorityList)) ++
          [.trigger (stTrigger (.newHeight status.toSMR) [] none INIT_ROUND status.height)]⟩

/-- What adopting a status shows. -/
theorem obs_adopt (w : WalInfo T) (l : List (OverlordMsg T)) (a : Authority) (t : SMRTrigger) (st : SMRStatus)
    (ht : t.triggerType = .newHeight st) :
    obs (.saveWal w true :: (l.map fun m => .spawnVerify m a) ++ [.trigger t]) = [.save w, .high st] := by
  have h1 : obs (l.map fun m => Effect.spawnVerify m a) = [] := obs_quiet (by
    intro x hx; obtain ⟨m, _, rfl⟩ := List.mem_map.1 hx; rfl)
  have h2 : obs [Effect.trigger (T := T) t] = [.high st] := by simp [obs, obsOf, ht]
  have h3 : obs (.saveWal w true :: (l.map fun m => .spawnVerify m a)) = .save w :: obs (l.map fun m => .spawnVerify m a) := rfl
  rw [obs_append, h3, h1, h2]; rfl

theorem status_moves (e : Env T) (s : State T) (st : Status) :
    Moves e s st (runArm (.verified (.richStatus st)) e ⟨s, []⟩).2 :=
  status_run e s st (P := fun _ w => Moves e s st w) .stay .away (fun _ _ hn => by cases hn)
    (fun b h1 h2 h3 h4 => .lost h1 h2 ⟨b, h3, h4⟩) (fun b h1 h2 h3 h4 => .adopt h1 h2 ⟨b, h3, h4⟩)

/-- All outcomes of `handle_commit`. -/
inductive CommitOut (e : Env T) (s : State T) (hash : Hash) : World T → Prop
  | none (hn : ∀ content qc, s.hashWithBlock.get? hash = some content →
      s.votes.getQcByHash s.height hash .precommit = some qc → encWalInfo (commitRec s qc content) = none) :
      CommitOut e s hash ⟨s, []⟩
  | lost (content qc) (hb : s.hashWithBlock.get? hash = some content)
      (hq : s.votes.getQcByHash s.height hash .precommit = some qc) (hs : Saved e (commitRec s qc content) false) :
      CommitOut e s hash ⟨s, [.saveWal (commitRec s qc content) false]⟩
  | failed (content qc) (hb : s.hashWithBlock.get? hash = some content)
      (hq : s.votes.getQcByHash s.height hash .precommit = some qc) (hs : Saved e (commitRec s qc content) true)
      (hc : e.commit s.height (mkCommit s hash content qc) = none) :
      CommitOut e s hash ⟨s, [.saveWal (commitRec s qc content) true,
        .commitCall s.height (mkCommit s hash content qc) none]⟩
  | stuck (content qc status x) (hb : s.hashWithBlock.get? hash = some content)
      (hq : s.votes.getQcByHash s.height hash .precommit = some qc) (hs : Saved e (commitRec s qc content) true)
      (hc : e.commit s.height (mkCommit s hash content qc) = some status)
      (hx : (Authority.update status.authorityList).getProposer e.mode status.height INIT_ROUND = .error x) :
      CommitOut e s hash ⟨{ s with authority := Authority.update status.authorityList },
        [.saveWal (commitRec s qc content) true,
          .commitCall s.height (mkCommit s hash content qc) (some status)]⟩
  | done (content qc status) (w : World T) (hb : s.hashWithBlock.get? hash = some content)
      (hq : s.votes.getQcByHash s.height hash .precommit = some qc) (hs : Saved e (commitRec s qc content) true)
      (hc : e.commit s.height (mkCommit s hash content qc) = some status)
      (hm : Moves e { s with authority := Authority.update status.authorityList } status w) :
      CommitOut e s hash ⟨w.st, [.saveWal (commitRec s qc content) true,
          .commitCall s.height (mkCommit s hash content qc) (some status)] ++ w.log⟩

theorem wp_commitOut {e : Env T} {s : State T} {hash : Hash} :
    wp (handleCommit hash) e ⟨s, []⟩ (fun _ => CommitOut e s hash) (fun _ => CommitOut e s hash) := by
  refine wp_handleCommit (fun hn _ => .none hn) (fun content qc hb hq hs => .lost content qc hb hq hs)
    (fun content qc hb hq hs hc => .failed content qc hb hq hs hc) ?_
  intro content qc status hb hq hs hc
  have key : ∀ w, Moves e { s with authority := Authority.update status.authorityList } status w →
      CommitOut e s hash ⟨w.st, [.saveWal (commitRec s qc content) true,
          .commitCall s.height (mkCommit s hash content qc) (some status)] ++ w.log⟩ :=
    fun w hm => .done content qc status w hb hq hs hc hm
  refine ⟨fun x hx => .stuck content qc status x hb hq hs hc hx, fun h1 => ?_, fun h1 h2 => ?_,
    fun h1 h2 h3 => ?_, fun h1 h2 h3 => ?_⟩
  · simpa using key _ (.stay h1)
  · simpa using key _ (.away h1 h2)
  · simpa using key _ (.lost h1 h2 h3)
  · simpa using key _ (.adopt h1 h2 h3)

/-- All outcomes of an event, for a powered and running State. -/
inductive EventOut (e : Env T) (s : State T) (w : World T) : SMREvent → Prop
  | newRound (h r lr lp f ni nc) (o : RoundOut s r lr w) : EventOut e s w (.newRoundInfo h r lr lp f ni nc)
  | prevote (h r hash lr) (o : VoteOut s .prevote hash lr w) : EventOut e s w (.prevoteVote h r hash lr)
  | precommit (h r hash lr) (o : VoteOut s .precommit hash lr w) : EventOut e s w (.precommitVote h r hash lr)
  | commit (hash) (o : CommitOut e s hash w) : EventOut e s w (.commit hash)
  | brake (r lr) (o : BrakeOut s lr w) : EventOut e s w (.brake s.height r lr)
  | stale (h r lr) (hh : h ≠ s.height) (hw : w = ⟨s, []⟩) : EventOut e s w (.brake h r lr)
  | stop (hw : w = ⟨s, []⟩) : EventOut e s w .stop

theorem event_out (e : Env T) (s : State T) (ev : SMREvent) (hp : s.consensusPower = true) (hs : s.stopped = false) :
    EventOut e s (runArm (.event ev) e ⟨s, []⟩).2 ev := by
  refine event_post (P := fun w => EventOut e s w ev) hp hs ?_
  unfold handleEvent
  cases ev with
  | newRoundInfo h r lr lp f ni nc =>
    wps
    exact wp_mono wp_newRound (fun _ _ o => .newRound h r lr lp f ni nc o)
      (fun _ _ o => ⟨fun _ => .newRound h r lr lp f ni nc o, fun _ => .newRound h r lr lp f ni nc o⟩)
  | prevoteVote h r hash lr =>
    wps
    exact wp_mono wp_vote (fun _ _ o => .prevote h r hash lr o)
      (fun _ _ o => ⟨fun _ => .prevote h r hash lr o, fun _ => .prevote h r hash lr o⟩)
  | precommitVote h r hash lr =>
    wps
    exact wp_mono wp_vote (fun _ _ o => .precommit h r hash lr o)
      (fun _ _ o => ⟨fun _ => .precommit h r hash lr o, fun _ => .precommit h r hash lr o⟩)
  | commit hash =>
    wps
    exact wp_mono wp_commitOut (fun _ _ o => .commit hash o) (fun _ _ o => ⟨fun _ => .commit hash o, fun _ => .commit hash o⟩)
  | brake h r lr =>
    wps
    refine ⟨fun hh => .stale h r lr hh rfl, fun hh => ?_⟩
    have hh : h = s.height := Decidable.not_not.1 hh
    subst hh
    exact wp_mono wp_brake (fun _ _ o => .brake r lr o) (fun _ _ o => ⟨fun _ => .brake r lr o, fun _ => .brake r lr o⟩)
  | stop => wps; exact .stop rfl

/-- All outcomes of a start. -/
inductive StartOut (e : Env T) (s : State T) (w : World T) : Prop
  /-- not a validator, or nothing stored and height 0, or the storage failed -/
  | idle (hw : w = ⟨s, []⟩)
      (h : s.consensusPower = true → (e.walLoad = none ∨ ∃ b x, e.walLoad = some (some b) ∧ decWalInfo (T := T) b = .error x) ∨
        (e.walLoad = some none ∧ s.height = INIT_HEIGHT))
  | fresh (hp : s.consensusPower = true) (hl : e.walLoad = some none) (hh : s.height ≠ INIT_HEIGHT)
      (hw : w = ⟨s, [.trigger (walTrig { height := s.height, round := s.round, step := .propose, polc := none })]⟩)
  | noLeader (b) (rec : WalInfo T) (x) (hp : s.consensusPower = true) (hl : e.walLoad = some (some b)) (hd : decWalInfo b = .ok rec)
      (hx : s.authority.getProposer e.mode rec.height rec.round = .error x)
      (hw : w = ⟨{ s with height := rec.height, round := rec.round }, []⟩)
  | noLock (b) (rec : WalInfo T) (p) (hp : s.consensusPower = true) (hl : e.walLoad = some (some b)) (hd : decWalInfo b = .ok rec)
      (hx : s.authority.getProposer e.mode rec.height rec.round = .ok p) (hst : rec.step = .commit) (hk : rec.lock = none)
      (hw : w = ⟨s.restored rec p, []⟩)
  | commit (b) (rec : WalInfo T) (p lock) (hp : s.consensusPower = true) (hl : e.walLoad = some (some b)) (hd : decWalInfo b = .ok rec)
      (hx : s.authority.getProposer e.mode rec.height rec.round = .ok p) (hst : rec.step = .commit) (hk : rec.lock = some lock)
      (o : CommitOut e (s.restored rec p) lock.lockVotes.blockHash w)
  | brake (b) (rec : WalInfo T) (p) (hp : s.consensusPower = true) (hl : e.walLoad = some (some b)) (hd : decWalInfo b = .ok rec)
      (hx : s.authority.getProposer e.mode rec.height rec.round = .ok p) (hst : rec.step = .brake) (w1 : World T)
      (o : BrakeOut (s.restored rec p) (rec.lock.map WalLock.lockRound) w1)
      (hw : w = w1 ∨ w = ⟨w1.st, w1.log ++ [.trigger (walTrig rec.intoSmrBase)]⟩)
  | resume (b) (rec : WalInfo T) (p) (hp : s.consensusPower = true) (hl : e.walLoad = some (some b)) (hd : decWalInfo b = .ok rec)
      (hx : s.authority.getProposer e.mode rec.height rec.round = .ok p) (hst : rec.step ≠ .commit) (hsb : rec.step ≠ .brake)
      (hw : w = ⟨s.restored rec p, [.trigger (walTrig rec.intoSmrBase)]⟩)

theorem isProposer_err {e : Env T} {s : State T} {l : List (Effect T)} {Q : Bool → World T → Prop} {E : Err → World T → Prop}
    (h0 : ∀ x, s.authority.getProposer e.mode s.height s.round = .error x → E x ⟨s, l⟩)
    (h1 : ∀ p, s.authority.getProposer e.mode s.height s.round = .ok p →
      Q (decide (p = s.address)) ⟨{ s with isLeader := decide (p = s.address), leaderAddress := p }, l⟩) :
    wp isProposer e ⟨s, l⟩ Q E := by
  unfold isProposer
  wps
  refine ⟨fun p hp => ⟨fun hq => ?_, fun hq => ?_⟩, fun x hx => h0 x hx⟩
  · have := h1 p hp; simp only [hq, decide_true] at this; exact this
  · have := h1 p hp; simp only [hq, decide_false] at this; exact this

theorem wp_startOut {e : Env T} {s : State T} :
    wp startWithWal e ⟨s, []⟩ (fun _ => StartOut e s) (fun _ => StartOut e s) := by
  cases hp : s.consensusPower with
  | false =>
    refine wp_start (fun _ => .idle rfl (by simp [hp])) ?_ ?_ ?_ ?_ <;> simp [hp]
  | true =>
  unfold startWithWal
  rw [wp_bind, wp_get, wp_ite]
  refine ⟨by simp [hp], fun _ => ?_⟩
  rw [wp_bind]
  unfold loadWal
  rw [wp_bind, wp_ask]
  split
  · rename_i hl
    exact .idle rfl fun _ => .inl (.inl hl)
  · rename_i hl
    wps [walLost]
    exact ⟨fun hh => .fresh hp hl hh rfl, fun hh => .idle rfl fun _ => .inr ⟨hl, Decidable.not_not.1 hh⟩⟩
  · rename_i b hl
    split
    · rename_i w hd
      wps
      refine isProposer_err (fun x hx => .noLeader b w x hp hl hd hx rfl) fun p hx => ?_
      have common : ∀ s1, s1 = s.restored w p →
          (w.step ≠ .commit → (w.step = .brake → wp (handleBrake w.round (w.lock.map WalLock.lockRound)) e ⟨s1, []⟩
            (fun _ w' => StartOut e s ⟨w'.st, w'.log ++ [.trigger (walTrig w.intoSmrBase)]⟩) (fun _ => StartOut e s)) ∧
            (¬ w.step = .brake → StartOut e s ⟨s1, [] ++ [.trigger (walTrig w.intoSmrBase)]⟩)) := by
        rintro s1 rfl hc
        refine ⟨fun hb => ?_, fun hb => .resume b w p hp hl hd hx hc hb rfl⟩
        exact wp_mono wp_brake (fun _ w1 o => .brake b w p hp hl hd hx hb w1 o (.inr rfl))
          (fun _ w1 o => .brake b w p hp hl hd hx hb w1 o (.inl rfl))
      cases hk : w.lock with
      | none =>
        have c := common _ rfl
        have hr : s.restored w p = { s with height := w.height, round := w.round, isLeader := decide (p = s.address), leaderAddress := p, updateFrom := w.from } := by
          simp [State.restored, hk]
        rw [hk, hr] at c
        wps
        exact ⟨fun hc => .noLock b w p hp hl hd hx hc hk (by rw [hr]), fun hc => ⟨fun hb => (c hc).1 hb, fun hb => (c hc).2 hb⟩⟩
      | some lock =>
        have c := common _ rfl
        have hr : s.restored w p =
          { s with height := w.height, round := w.round, isLeader := decide (p = s.address), leaderAddress := p, updateFrom := w.from,
                   votes := s.votes.setQc lock.lockVotes,
                   hashWithBlock := s.hashWithBlock.insert lock.lockVotes.blockHash lock.content } := by
          simp [State.restored, hk]
        rw [hk, hr] at c
        wps
        refine ⟨fun hc => ?_, fun hc => ⟨fun hb => (c hc).1 hb, fun hb => (c hc).2 hb⟩⟩
        have := wp_commitOut (e := e) (s := s.restored w p) (hash := lock.lockVotes.blockHash)
        rw [hr] at this
        exact wp_mono this (fun _ w1 o => .commit b w p lock hp hl hd hx hc hk (by rw [hr]; exact o))
          (fun _ w1 o => .commit b w p lock hp hl hd hx hc hk (by rw [hr]; exact o))
    · rename_i hd
      exact .idle rfl fun _ => .inl (.inr ⟨b, _, hl, hd⟩)
    · rename_i hd
      exact .idle rfl fun _ => .inl (.inr ⟨b, _, hl, hd⟩)

theorem start_out (e : Env T) (s : State T) : StartOut e s (runArm .start e ⟨s, []⟩).2 := by
  apply wp_post
  unfold runArm
  wps
  exact wp_mono wp_startOut (fun _ _ h => h) (fun x w h => ⟨fun _ => h, fun _ => h⟩)

/-- All outcomes of an arm of the loop. -/
inductive ArmOut (e : Env T) (s : State T) (i : Input T) (w : World T) : Prop
  | quiet (ho : obs w.log = []) (hs : SamePos s w.st) (hr : w.st.round = s.round)
  | event (ev) (hi : i = .event ev) (hp : s.consensusPower = true) (o : EventOut e s w ev)
  | status (st) (hi : i = .verified (.richStatus st)) (o : Moves e s st w)

theorem arm_out (e : Env T) (s : State T) (i : Input T) (hi : i ≠ .start) :
    ArmOut e s i (runArm i e ⟨s, []⟩).2 := by
  have q : QuietInput i → ArmOut e s i (runArm i e ⟨s, []⟩).2 := fun h =>
    .quiet (quiet_msg h).1 (quiet_msg h).2.1 (quiet_msg h).2.2
  cases i with
  | start => exact absurd rfl hi
  | raw m => exact q (.inl ⟨m, rfl⟩)
  | resp r => exact q (.inr (.inl ⟨r, rfl⟩))
  | verified m =>
    cases m with
    | richStatus st => exact .status st rfl (status_moves e s st)
    | _ => exact q (.inr (.inr ⟨_, rfl, rfl⟩))
  | event ev =>
    by_cases h : s.consensusPower = false ∨ s.stopped = true
    · rw [event_idle h]; exact .quiet rfl (.refl _) rfl
    · simp only [not_or, Bool.not_eq_false, Bool.not_eq_true] at h
      exact .event ev rfl h.1 (event_out e s ev h.1 h.2)

end

end Overlord
