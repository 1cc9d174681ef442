import Verif.Proofs.NodeAuth

/-! Which blocks have been checked by the application. -/

set_option linter.unusedSimpArgs false
set_option linter.unusedVariables false
set_option linter.unusedSectionVars false
set_option linter.unnecessarySeqFocus false

namespace Overlord
open M Spec

variable {T : Type} [ContentCodec T] [DecidableEq T]

/-- The proposal has the height and content of its hash. -/
def Fits (f : Hash → Nat × T) (sp : SignedProposal T) : Prop :=
  f sp.proposal.blockHash = (sp.proposal.height, sp.proposal.content)

/-- Messages with proposals that fit. -/
abbrev FitsMsg (f : Hash → Nat × T) : OverlordMsg T → Prop := MsgOk (Fits f) (fun _ => True) (fun _ => True)

/-- A record whose lock fits; if it is a commit, the block is checked. -/
def RecFits (f : Hash → Nat × T) (Ch : Hash → Prop) (w : WalInfo T) : Prop :=
  ∀ l, w.lock = some l → f l.lockVotes.blockHash = (w.height, l.content) ∧ (w.step = .commit → Ch l.lockVotes.blockHash)

/-- What effects say about the blocks they carry. -/
def EffFits (f : Hash → Nat × T) (Ch : Hash → Prop) : Effect T → Prop
  | .trigger t => t.triggerType = .precommitQC → t.hash ≠ [] → Ch t.hash
  | .spawnCheck k _ h b => f h = (k, b)
  | .saveWal w ok => ok = true → RecFits f Ch w
  | .commitCall k c _ => f c.proof.blockHash = (k, c.content) ∧ Ch c.proof.blockHash
  | .spawnVerify m _ => FitsMsg f m
  | .toVerified m => FitsMsg f m
  | _ => True

theorem EffFits.mono {f : Hash → Nat × T} {Ch Ch' : Hash → Prop} (h : ∀ x, Ch x → Ch' x) {x : Effect T} (hx : EffFits f Ch x) :
    EffFits f Ch' x := by
  cases x with
  | trigger t => exact fun a b => h _ (hx a b)
  | saveWal w ok => exact fun ho l hl => ⟨(hx ho l hl).1, fun hs => h _ ((hx ho l hl).2 hs)⟩
  | commitCall k c r => exact ⟨hx.1, h _ hx.2⟩
  | _ => exact hx

/-- The blocks of a State. -/
structure StFits (f : Hash → Nat × T) (Ch : Hash → Prop) (s : State T) : Prop where
  full : ∀ h, s.isFullTransaction.get? h = some true → Ch h
  blocks : s.consensusPower = true → ∀ h b, s.hashWithBlock.get? h = some b → f h = (s.height, b)
  store : Store (Fits f) (fun _ => True) (fun _ => True) s

theorem StFits.mono {f : Hash → Nat × T} {Ch Ch' : Hash → Prop} (h : ∀ x, Ch x → Ch' x) {s : State T} (hx : StFits f Ch s) :
    StFits f Ch' s := ⟨fun x hh => h _ (hx.full x hh), hx.blocks, hx.store⟩

/-- What inputs say about the blocks they carry. -/
def InFits (f : Hash → Nat × T) (Ch : Hash → Prop) : Input T → Prop
  | .event (.commit h) => Ch h
  | .resp r => Ch r.blockHash
  | .verified m => FitsMsg f m
  | .raw m => FitsMsg f m
  | _ => True

theorem walLock_fits {f : Hash → Nat × T} {Ch : Hash → Prop} {s : State T} {lr : Option Nat} {lock : Option (WalLock T)} {step : Step}
    (hb : ∀ h b, s.hashWithBlock.get? h = some b → f h = (s.height, b)) (hl : WalLockOf s lr lock) (hs : step ≠ .commit) :
    RecFits f Ch (walRec s step lock) := by
  intro l hk
  have hk : lock = some l := hk
  cases lr with
  | none => have hl : lock = none := hl; rw [hl] at hk; cases hk
  | some r =>
    obtain ⟨qc, b, h1, h2, h3⟩ := hl
    rw [h3] at hk; cases hk
    exact ⟨hb _ _ h2, fun h => absurd h hs⟩

/-- Inputs that do not move a validator. -/
theorem quiet_fits {f : Hash → Nat × T} {Ch : Hash → Prop} {e : Env T} {i : Input T} {s : State T}
    (hi : ¬ MoveInput i) (hp : s.consensusPower = true) (h : StFits f Ch s) (hin : InFits f Ch i)
    (hg : ∀ k b h, e.getBlock k = some (b, h) → f h = (k, b)) :
    StFits f Ch (runArm i e ⟨s, []⟩).2.st ∧ ∀ x ∈ (runArm i e ⟨s, []⟩).2.log, EffFits f Ch x := by
  simp only [MoveInput, not_or, not_exists] at hi
  obtain ⟨h1, h2, h3, h4⟩ := hi
  have := arm_inv (e := e) (i := i) (s := s) (P := fun w => w.st.consensusPower = true ∧ StFits f Ch w.st ∧
    ∀ x ∈ w.log, EffFits f Ch x) ⟨hp, h, by simp⟩ (by
      intro w eff s' ⟨g1, g2, g3⟩ hm
      have hprop : ∀ sp, ProposalInput i w.st sp → Fits f sp := by
        rintro sp (hi | ⟨_, hi⟩)
        · rw [hi] at hin; exact hin
        · exact (g2.store.props.get hi).2.2
      have hst := g2.store.micro hm hprop (fun _ _ => trivial) (fun _ _ _ => trivial) (fun _ _ => trivial) (fun _ _ _ => trivial)
        (fun _ _ _ hi => absurd hi h1)
      have key : s'.consensusPower = true ∧ (∀ h, s'.isFullTransaction.get? h = some true → Ch h) ∧
          (∀ h b, s'.hashWithBlock.get? h = some b → f h = (s'.height, b)) ∧ ∀ x ∈ eff, EffFits f Ch x := by
        have hb := g2.blocks g1
        have hf := g2.full
        cases hm with
        | trigQcId r ty qc hq hfull =>
          refine ⟨g1, hf, hb, ?_⟩
          intro x hx
          simp only [List.mem_singleton] at hx
          subst hx
          intro ht hne
          have hne : qc.blockHash ≠ [] := hne
          unfold State.tryGetFullTxs at hfull
          rw [if_neg hne] at hfull
          split at hfull
          · rename_i r' hr'
            exact hf qc.blockHash (by rw [hr', hfull])
          · cases hfull
        | trigQcHash h ty qc hi hq hr =>
          refine ⟨g1, hf, hb, ?_⟩
          intro x hx
          simp only [List.mem_singleton] at hx
          subst hx
          intro ht hne
          obtain ⟨r, rfl, rfl, _⟩ := hi
          have : qc.blockHash = r.blockHash := (g2.store.votes.getQcByHash hq).2.1
          show Ch qc.blockHash
          rw [this]; exact hin
        | checked r hi hh =>
          subst hi
          refine ⟨g1, ?_, hb, by simp⟩
          intro h hget
          dsimp only at hget
          rw [AMap.get?_insert] at hget
          split at hget
          · rename_i he; rw [← he]; exact hin
          · exact hf h hget
        | storeBlock sp hi hc hp hh hr =>
          refine ⟨g1, hf, ?_, by simp⟩
          intro h b hget
          dsimp only at hget ⊢
          rw [AMap.get?_insert] at hget
          split at hget
          · rename_i he
            cases hget
            rw [← he, ← hh]; exact hprop sp hi
          · exact hb h b hget
        | acceptProposal sp ps hi hc hp hh hr hbk hs =>
          refine ⟨g1, hf, hb, ?_⟩
          intro x hx
          simp only [List.mem_cons, List.not_mem_nil, or_false] at hx
          rcases hx with rfl | rfl
          · intro ht; cases ht
          · exact hb _ _ hbk
        | enterRound round lr lp f' hi =>
          refine ⟨g1, hf, hb, ?_⟩
          intro x hx
          split at hx
          · cases hx
          · simp only [List.mem_singleton] at hx; subst hx; trivial
        | wal step lr lock ok hsv hl hi =>
          refine ⟨g1, hf, hb, ?_⟩
          intro x hx
          simp only [List.mem_singleton] at hx
          subst hx
          refine fun _ => walLock_fits hb hl ?_
          rcases hi with ⟨rfl, _⟩ | ⟨_, ⟨ty, _, _, rfl⟩ | ⟨rfl, _⟩⟩
          · simp
          · cases ty <;> simp [VoteType.toStep]
          · simp
        | ownBlock hash block hi hn hbk =>
          refine ⟨g1, hf, ?_, ?_⟩
          · intro h b hget
            dsimp only at hget ⊢
            rw [AMap.get?_insert] at hget
            split at hget
            · rename_i he
              cases hget
              rw [← he]; exact hg _ _ _ hbk
            · exact hb h b hget
          · intro x hx; simp only [List.mem_singleton] at hx; subst hx; trivial
        | propose sp r lr lp f' hi hr0 hl hh hr ha hlk hs =>
          refine ⟨g1, hf, hb, ?_⟩
          intro x hx
          simp only [List.mem_cons, List.not_mem_nil, or_false] at hx
          rcases hx with rfl | rfl | rfl
          · trivial
          · intro ht; cases ht
          · cases lr with
            | none => exact hg _ _ _ hlk.2
            | some k => exact hb _ _ hlk.2.1
        | castVote ty hash lr lock sv hsv hi hl =>
          refine ⟨g1, hf, hb, ?_⟩
          intro x hx
          simp only [List.mem_cons, List.not_mem_nil, or_false] at hx
          rcases hx with rfl | rfl
          · exact fun _ => walLock_fits hb hl (by cases ty <;> simp [VoteType.toStep])
          · split <;> trivial
        | castChoke sc lr lock hsv hi hl =>
          refine ⟨g1, hf, hb, ?_⟩
          intro x hx
          simp only [List.mem_cons, List.not_mem_nil, or_false] at hx
          rcases hx with rfl | rfl
          · exact fun _ => walLock_fits hb hl (by simp)
          · trivial
        | commitLost w' hsv hw hh hr => exact ⟨g1, hf, hb, by simp [EffFits]⟩
        | commit hash content qc hsv hi => rcases hi with hi | hi; exact absurd hi (h4 _); exact absurd hi h1
        | move status hi => rcases hi with hi | hi | ⟨h, hi⟩; exact absurd hi (h3 _); exact absurd hi h1; exact absurd hi (h4 _)
        | moveLost status hsv hi => rcases hi with hi | hi | ⟨h, hi⟩; exact absurd hi (h3 _); exact absurd hi h1; exact absurd hi (h4 _)
        | adopt status hsv hi => rcases hi with hi | hi | ⟨h, hi⟩; exact absurd hi (h3 _); exact absurd hi h1; exact absurd hi (h4 _)
        | walLost hi => exact absurd hi h1
        | restorePos w b hi => exact absurd hi h1
        | restoreLeader _ _ hi => exact absurd hi h1
        | restoreFrom w b hi => exact absurd hi h1
        | restoreLock w b lock hi => exact absurd hi h1
        | walTrigger w b hi => exact absurd hi h1
        | forward m hi => exact absurd hi (h2 _)
        | verify m hi => exact absurd hi (h2 _)
        | chokeQuorum => exact ⟨g1, hf, hb, by simp [EffFits, stTrigger]⟩
        | recvChokeQc => exact ⟨g1, hf, hb, by simp [EffFits, stTrigger]⟩
        | stop => exact ⟨g1, hf, hb, by simp [EffFits, stTrigger]⟩
        | _ => exact ⟨g1, hf, hb, by simp [EffFits]⟩
      obtain ⟨k1, k2, k3, k4⟩ := key
      refine ⟨k1, ⟨k2, fun _ => k3, hst⟩, fun x hx => ?_⟩
      rcases List.mem_append.1 hx with hx | hx
      · exact g3 x hx
      · exact k4 x hx)
  exact this.2

/-- A State without power only follows statuses. -/
theorem idle_input {e : Env T} {i : Input T} {s : State T} (hi : ¬ MoveInput i) (hp : s.consensusPower = false) :
    (runArm i e ⟨s, []⟩).2 = ⟨s, []⟩ := by
  simp only [MoveInput, not_or, not_exists] at hi
  obtain ⟨h1, h2, h3, h4⟩ := hi
  cases i with
  | start => exact absurd rfl h1
  | raw m => exact absurd rfl (h2 m)
  | event ev => exact event_idle (.inl hp)
  | resp r =>
    apply wp_post (P := fun w => w = ⟨s, []⟩)
    unfold runArm
    wps
    simp [hp]
  | verified m =>
    have hm : m.isRichStatus = false := by
      cases m <;> first | rfl | exact absurd rfl (h3 _)
    apply wp_post (P := fun w => w = ⟨s, []⟩)
    unfold runArm handleMsg
    wps
    simp [hp, hm]

theorem moves_fits {f : Hash → Nat × T} {Ch : Hash → Prop} {e : Env T} {s : State T} {status : Status} {w : World T}
    (h : StFits f Ch s) (hs : ∀ b, e.walSave b = true) (m : Moves e s status w) :
    StFits f Ch w.st ∧ ∀ x ∈ w.log, EffFits f Ch x := by
  cases m with
  | stay => exact ⟨h, by simp⟩
  | away hh hp => exact ⟨⟨h.full, fun hp' => absurd (show status.isConsensusNode s.address = true from hp') (by simp [hp]), ⟨h.store.props, h.store.votes⟩⟩, by simp⟩
  | lost hh hp hs' => obtain ⟨b, _, hb⟩ := hs'; rw [hs b] at hb; cases hb
  | adopt hh hp hs' =>
    refine ⟨⟨h.full, fun _ x b hg => ?_, h.store.adopted _ _⟩, ?_⟩
    · simp [State.adopted, AMap.get?] at hg
    · intro x hx
      simp only [List.cons_append, List.mem_cons, List.mem_append, List.mem_map, List.not_mem_nil, or_false] at hx
      rcases hx with rfl | ⟨m, hm, rfl⟩ | rfl
      · intro _ l hl; cases hl
      · exact (h.store.recheck hm).2
      · intro ht; cases ht

theorem commit_fits {f : Hash → Nat × T} {Ch : Hash → Prop} {e : Env T} {s : State T} {hash : Hash} {w : World T}
    (h : StFits f Ch s) (hp : s.consensusPower = true) (hc : Ch hash) (hs : ∀ b, e.walSave b = true) (o : CommitOut e s hash w) :
    StFits f Ch w.st ∧ ∀ x ∈ w.log, EffFits f Ch x := by
  have h2 : ∀ content qc res, s.hashWithBlock.get? hash = some content → s.votes.getQcByHash s.height hash .precommit = some qc →
      ∀ x ∈ [Effect.saveWal (commitRec s qc content) true, .commitCall s.height (mkCommit s hash content qc) res], EffFits f Ch x := by
    intro content qc res hb hq x hx
    have e1 : qc.blockHash = hash := (h.store.votes.getQcByHash hq).2.1
    have e2 := h.blocks hp _ _ hb
    simp only [List.mem_cons, List.not_mem_nil, or_false] at hx
    rcases hx with rfl | rfl
    · intro _ l hl
      cases hl
      show f qc.blockHash = _ ∧ _
      rw [e1]
      exact ⟨e2, fun _ => hc⟩
    · exact ⟨e2, hc⟩
  have h3 : ∀ status : Status, StFits f Ch { s with authority := Authority.update status.authorityList } :=
    fun _ => ⟨h.full, h.blocks, ⟨h.store.props, h.store.votes⟩⟩
  cases o with
  | none => exact ⟨h, by simp⟩
  | lost content qc hb hq hs' => obtain ⟨b, _, hb⟩ := hs'; rw [hs b] at hb; cases hb
  | failed content qc hb hq hs' hc' => exact ⟨h, h2 content qc _ hb hq⟩
  | stuck content qc st x hb hq hs' hc' hx => exact ⟨h3 st, h2 content qc _ hb hq⟩
  | done content qc st w hb hq hs' hc' hm =>
    obtain ⟨g1, g2⟩ := moves_fits (h3 st) hs hm
    refine ⟨g1, fun x hx => ?_⟩
    rcases List.mem_append.1 hx with hx | hx
    · exact h2 content qc _ hb hq x hx
    · exact g2 x hx

/-- Any input of a running node. -/
theorem arm_fits {f : Hash → Nat × T} {Ch : Hash → Prop} {e : Env T} {i : Input T} {s : State T} (hi : i ≠ .start)
    (h : StFits f Ch s) (hin : InFits f Ch i) (hg : ∀ k b h, e.getBlock k = some (b, h) → f h = (k, b)) (hs : ∀ b, e.walSave b = true) :
    StFits f Ch (runArm i e ⟨s, []⟩).2.st ∧ ∀ x ∈ (runArm i e ⟨s, []⟩).2.log, EffFits f Ch x := by
  by_cases hm : MoveInput i
  · rcases hm with h' | ⟨m, rfl⟩ | ⟨st, rfl⟩ | ⟨x, rfl⟩
    · exact absurd h' hi
    · obtain ⟨g1, g2⟩ := raw_auth (e := e) (m := m) (s := s)
      rw [g1]
      refine ⟨h, fun x hx => ?_⟩
      rcases g2 with g | ⟨g, _⟩ | ⟨g, _⟩
      · rw [g] at hx; cases hx
      · rw [g] at hx; simp at hx; subst hx; exact hin
      · rw [g] at hx; simp at hx; subst hx; exact hin
    · exact moves_fits h hs (status_moves e s st)
    · by_cases h' : s.consensusPower = false ∨ s.stopped = true
      · rw [event_idle h']; exact ⟨h, by simp⟩
      · simp only [not_or, Bool.not_eq_false, Bool.not_eq_true] at h'
        have o := event_out e s (.commit x) h'.1 h'.2
        generalize (runArm (.event (.commit x)) e ⟨s, []⟩).2 = w at *
        cases o with
        | commit _ o => exact commit_fits h h'.1 hin hs o
  · cases hp : s.consensusPower with
    | false => rw [idle_input hm hp]; exact ⟨h, by simp⟩
    | true => exact quiet_fits hm hp h hin hg

theorem start_full {e : Env T} {s : State T} : (runArm .start e ⟨s, []⟩).2.st.isFullTransaction = s.isFullTransaction := by
  refine arm_state_inv (e := e) (i := .start) (P := fun s' => s'.isFullTransaction = s.isFullTransaction) rfl ?_
  intro s1 eff s2 h hm
  cases hm with
  | checked r hi => cases hi
  | _ => exact h

theorem start_nocheck {e : Env T} {s : State T} {k r : Nat} {h : Hash} {b : T} : .spawnCheck k r h b ∉ (runArm .start e ⟨s, []⟩).2.log := by
  intro hx
  obtain ⟨s1, eff, s2, -, hm, hx⟩ := arm_effect (P := fun _ => True) trivial (fun _ _ _ _ _ => trivial) hx
  cases hm with
  | acceptProposal sp ps hi =>
    rcases hi with hi | ⟨⟨_, _, _, _, _, _, _, hi⟩, _⟩ <;> cases hi
  | propose sp r lr lp f hi => obtain ⟨_, _, _, hi⟩ := hi; cases hi
  | enterRound => split at hx <;> simp at hx
  | castVote => split at hx <;> simp at hx
  | _ => simp at hx

theorem start_nofwd {e : Env T} {s : State T} {m : OverlordMsg T} : .toVerified m ∉ (runArm .start e ⟨s, []⟩).2.log := by
  intro hx
  obtain ⟨s1, eff, s2, -, hm, hx⟩ := arm_effect (P := fun _ => True) trivial (fun _ _ _ _ _ => trivial) hx
  cases hm with
  | forward m hi => cases hi
  | enterRound => split at hx <;> simp at hx
  | castVote => split at hx <;> simp at hx
  | _ => simp at hx

theorem start_fits {f : Hash → Nat × T} {Ch : Hash → Prop} {e : Env T} {addr : Address} {p : StartParams}
    (hw : ∀ b (w : WalInfo T), e.walLoad = some (some b) → decWalInfo b = .ok w → RecFits f Ch w) (hs : ∀ b, e.walSave b = true) :
    StFits f Ch (runArm .start e ⟨(State.new addr p.initHeight p.interval p.list : State T), []⟩).2.st ∧
      ∀ x ∈ (runArm .start e ⟨(State.new addr p.initHeight p.interval p.list : State T), []⟩).2.log, EffFits f Ch x := by
  have h0 : StFits f Ch (State.new addr p.initHeight p.interval p.list : State T) :=
    ⟨fun h hg => by simp [State.new, AMap.get?] at hg, fun _ h b hg => by simp [State.new, AMap.get?] at hg, Store.new ..⟩
  have hwal : ∀ b : SMRBase, ∀ x ∈ [Effect.trigger (T := T) (walTrig b)], EffFits f Ch x := by
    intro b x hx; simp only [List.mem_singleton] at hx; subst hx; intro ht; cases ht
  have o := start_out e (State.new addr p.initHeight p.interval p.list : State T)
  have q1 := start_full (e := e) (s := (State.new addr p.initHeight p.interval p.list : State T))
  have q2 := fun k r h b => start_nocheck (e := e) (s := (State.new addr p.initHeight p.interval p.list : State T)) (k := k) (r := r) (h := h) (b := b)
  have q3 := fun m => start_nofwd (e := e) (s := (State.new addr p.initHeight p.interval p.list : State T)) (m := m)
  have q4 := brake_spawn (e := e) (s := (State.new addr p.initHeight p.interval p.list : State T))
  have hnew : (State.new addr p.initHeight p.interval p.list : State T).hashWithBlock = [] := rfl
  generalize (State.new addr p.initHeight p.interval p.list : State T) = s at *
  generalize (runArm .start e ⟨s, []⟩).2 = w at *
  have hrest : ∀ b (rec : WalInfo T) q, e.walLoad = some (some b) → decWalInfo b = .ok rec → StFits f Ch (s.restored rec q) := by
    intro b rec q hl hd
    have hr := hw b rec hl hd
    unfold State.restored
    split
    · refine ⟨h0.full, ?_, ⟨h0.store.props, h0.store.votes⟩⟩
      intro _ h b hg; dsimp only at hg; rw [hnew] at hg; simp [AMap.get?] at hg
    · rename_i lock hk
      refine ⟨h0.full, ?_, ⟨h0.store.props, h0.store.votes.setQc trivial⟩⟩
      intro _ h b hg
      dsimp only at hg ⊢
      rw [AMap.get?_insert] at hg
      split at hg
      · rename_i he
        cases hg
        rw [← he]; exact (hr lock hk).1
      · rw [hnew] at hg; simp [AMap.get?] at hg
  cases o with
  | idle hw' => subst hw'; exact ⟨h0, by simp⟩
  | fresh _ _ _ hw' => subst hw'; exact ⟨h0, hwal _⟩
  | noLeader b rec x hp hl hd hx hw' =>
    subst hw'
    refine ⟨⟨h0.full, ?_, ⟨h0.store.props, h0.store.votes⟩⟩, by simp⟩
    intro _ h b hg; dsimp only at hg; rw [hnew] at hg; simp [AMap.get?] at hg
  | noLock b rec q hp hl hd hx hst hk hw' => subst hw'; exact ⟨hrest b rec q hl hd, by simp⟩
  | resume b rec q hp hl hd hx hst hk hw' => subst hw'; exact ⟨hrest b rec q hl hd, hwal _⟩
  | commit b rec q lock hp hl hd hx hst hk o =>
    have hpw : (s.restored rec q).consensusPower = true := by rw [(restored_pos s rec q).2.2.1]; exact hp
    exact commit_fits (hrest b rec q hl hd) hpw ((hw b rec hl hd lock hk).2 hst) hs o
  | brake b rec q hp hl hd hx hst w1 o hw' =>
    have hr := hrest b rec q hl hd
    have hpw : (s.restored rec q).consensusPower = true := by rw [(restored_pos s rec q).2.2.1]; exact hp
    have est : w.st = w1.st := by rcases hw' with rfl | rfl <;> rfl
    have eobs : obs w.log = obs w1.log := by
      rcases hw' with rfl | rfl
      · rfl
      · rw [obs_append]
        simp [obs, obsOf, walTrig, stTrigger]
    obtain ⟨k1, k2, k3, k4, k5, _, _⟩ := o.keep
    refine ⟨⟨fun h hg => ?_, fun _ h b hg => ?_, ⟨?_, ?_⟩⟩, ?_⟩
    · rw [q1] at hg; exact h0.full h hg
    · rw [est, k2] at hg
      rw [est, o.same.height]
      exact hr.blocks hpw h b hg
    · rw [est, k5]; exact hr.store.props
    · rw [est, k1]; exact hr.store.votes
    · intro x hx
      have hsave : ∀ r, .save r ∈ obs w.log → r.step = .brake ∧ RecFits f Ch r := by
        intro r h1
        rw [eobs] at h1
        rcases o.out with h | ⟨lock, hl, h⟩
        · rw [h] at h1; cases h1
        · rw [h] at h1; simp at h1; subst h1; exact ⟨rfl, walLock_fits (hr.blocks hpw) hl (by simp)⟩
      cases x with
      | trigger t =>
        intro ht
        have : .trigger t ∈ w1.log ∨ t = walTrig rec.intoSmrBase := by
          rcases hw' with rfl | rfl
          · exact .inl hx
          · rcases List.mem_append.1 hx with hx | hx
            · exact .inl hx
            · simp at hx; exact .inr hx
        rcases this with h | rfl
        · rw [(o.trigs t h).1] at ht; cases ht
        · cases ht
      | saveWal r ok =>
        intro hok
        subst hok
        exact (hsave r (List.mem_filterMap.2 ⟨_, hx, rfl⟩)).2
      | spawnCheck k r h b => exact absurd hx (q2 k r h b)
      | toVerified m => exact absurd hx (q3 m)
      | spawnVerify m a =>
        obtain ⟨r, h1, h2⟩ := q4 m a hx
        rw [(hsave r h1).1] at h2; cases h2
      | commitCall k c r =>
        have : .call k c r ∈ obs w.log := List.mem_filterMap.2 ⟨_, hx, rfl⟩
        rw [eobs] at this
        rcases o.out with h | ⟨lock, hl, h⟩
        · rw [h] at this; cases this
        · rw [h] at this; simp at this
      | _ => trivial

end Overlord
