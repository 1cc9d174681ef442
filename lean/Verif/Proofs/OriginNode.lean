import Verif.Proofs.Origin

/-! Where the blocks a node holds, proposes, saves and commits come from (continued). -/

set_option linter.unusedSimpArgs false
set_option linter.unusedVariables false
set_option linter.unusedSectionVars false
set_option linter.unnecessarySeqFocus false

namespace Overlord
open M Spec

variable {T : Type} [ContentCodec T] [DecidableEq T]

namespace Origin

/-- `O k h c`: it is known where the block with hash `h` and content `c` of height `k` comes from. -/
abbrev Known (T : Type) := Nat → Hash → T → Prop

/-- The blocks in effects are known; of the proposals those with a lock. -/
def EffLocked (O : Known T) : Effect T → Prop
  | .saveWal w true => ∀ l, w.lock = some l → O w.height l.lockVotes.blockHash l.content
  | .broadcast (.signedProposal sp) => sp.proposal.lock ≠ none → O sp.proposal.height sp.proposal.blockHash sp.proposal.content
  | .commitCall k c _ => O k c.proof.blockHash c.content
  | _ => True

/-- The blocks in effects are known. -/
def EffKnown (O : Known T) : Effect T → Prop
  | .saveWal w true => ∀ l, w.lock = some l → O w.height l.lockVotes.blockHash l.content
  | .broadcast (.signedProposal sp) => O sp.proposal.height sp.proposal.blockHash sp.proposal.content
  | .commitCall k c _ => O k c.proof.blockHash c.content
  | _ => True

theorem EffLocked.mono {O O' : Known T} (h : ∀ k x c, O k x c → O' k x c) {x : Effect T} (hx : EffLocked O x) : EffLocked O' x := by
  cases x with
  | saveWal w ok => cases ok with
    | false => trivial
    | true => exact fun l hl => h _ _ _ (hx l hl)
  | broadcast m => cases m with
    | signedProposal sp => exact fun hl => h _ _ _ (hx hl)
    | _ => trivial
  | commitCall k c r => exact h _ _ _ hx
  | _ => trivial

theorem EffKnown.mono {O O' : Known T} (h : ∀ k x c, O k x c → O' k x c) {x : Effect T} (hx : EffKnown O x) : EffKnown O' x := by
  cases x with
  | saveWal w ok => cases ok with
    | false => trivial
    | true => exact fun l hl => h _ _ _ (hx l hl)
  | broadcast m => cases m with
    | signedProposal sp => exact h _ _ _ hx
    | _ => trivial
  | commitCall k c r => exact h _ _ _ hx
  | _ => trivial

/-- The blocks made by the node itself count as known. -/
def Plus (O : Known T) (l : List (Effect T)) : Known T := fun k h c => O k h c ∨ .getBlock k (some (c, h)) ∈ l

theorem Plus.mono {O : Known T} {l l' : List (Effect T)} (h : ∀ x ∈ l, x ∈ l') : ∀ k x c, Plus O l k x c → Plus O l' k x c := by
  rintro k x c (h1 | h1)
  · exact .inl h1
  · exact .inr (h _ h1)

/-- Every effect is justified by what is known and by the effects before it. -/
def Justified (O : Known T) (l : List (Effect T)) : Prop := ∀ j, ∀ x ∈ l.take j, EffLocked (Plus O (l.take j)) x

theorem Justified.append {O : Known T} {l eff : List (Effect T)} (h : Justified O l) (he : ∀ x ∈ eff, EffLocked (Plus O l) x) :
    Justified O (l ++ eff) := by
  intro j x hx
  rw [List.take_append] at hx ⊢
  by_cases hj : j ≤ l.length
  · have : j - l.length = 0 := by omega
    rw [this, List.take_zero, List.append_nil] at hx ⊢
    exact h j x hx
  · rw [List.take_of_length_le (by omega)] at hx ⊢
    have up : ∀ k y c, Plus O l k y c → Plus O (l ++ eff.take (j - l.length)) k y c := Plus.mono fun y hy => List.mem_append_left _ hy
    rcases List.mem_append.1 hx with hx | hx
    · have := h l.length x (by rwa [List.take_length])
      rw [List.take_length] at this
      exact this.mono up
    · exact (he x (List.mem_of_mem_take hx)).mono up

/-- A stored proposal of the current height by the leader of its round carries a known block. -/
def PropKnown (O : Known T) (mode : LeaderMode) (lists : Nat → List Node) (H : Nat) (sp : SignedProposal T) : Prop :=
  sp.proposal.height = H → LeaderOf mode lists H sp.proposal.round sp.proposal.proposer → O H sp.proposal.blockHash sp.proposal.content

/-- The blocks of a State. -/
structure StKnown (O : Known T) (mode : LeaderMode) (lists : Nat → List Node) (s : State T) : Prop where
  blocks : s.consensusPower = true → ∀ h b, s.hashWithBlock.get? h = some b → O s.height h b
  props : s.consensusPower = true → Store (PropKnown O mode lists s.height) (fun _ => True) (fun _ => True) s

theorem StKnown.mono {O O' : Known T} {mode : LeaderMode} {lists : Nat → List Node} (h : ∀ k x c, O k x c → O' k x c) {s : State T}
    (hx : StKnown O mode lists s) : StKnown O' mode lists s :=
  ⟨fun hp x b hg => h _ _ _ (hx.blocks hp x b hg), fun hp => (hx.props hp).mono (fun _ h1 h2 h3 => h _ _ _ (h1 h2 h3)) (fun _ h => h) (fun _ h => h)⟩

/-- What a verified proposal brings. -/
def InKnown (O : Known T) (mode : LeaderMode) (lists : Nat → List Node) (s : State T) : Input T → Prop
  | .verified (.signedProposal sp) => s.consensusPower = true → PropKnown O mode lists s.height sp
  | _ => True

/-- Inputs that do not move a validator. -/
theorem quiet_known {O : Known T} {mode : LeaderMode} {lists : Nat → List Node} {e : Env T} {i : Input T} {s : State T} (hi : ¬ MoveInput i)
    (hp : s.consensusPower = true) (hau : s.authority = Authority.update (lists s.height)) (hmo : e.mode = mode)
    (h : StKnown O mode lists s) (hin : InKnown O mode lists s i) :
    StKnown (Plus O (runArm i e ⟨s, []⟩).2.log) mode lists (runArm i e ⟨s, []⟩).2.st ∧ Justified O (runArm i e ⟨s, []⟩).2.log := by
  simp only [MoveInput, not_or, not_exists] at hi
  obtain ⟨h1, h2, h3, h4⟩ := hi
  have := arm_inv (e := e) (i := i) (s := s) (P := fun w => w.st.consensusPower = true ∧ w.st.height = s.height ∧ w.st.authority = s.authority ∧
      Store (PropKnown O mode lists s.height) (fun _ => True) (fun _ => True) w.st ∧
      (∀ h b, w.st.hashWithBlock.get? h = some b → Plus O w.log s.height h b) ∧ Justified O w.log)
    ⟨hp, rfl, rfl, h.props hp, fun x b hg => .inl (h.blocks hp x b hg), by intro j x hx; simp at hx⟩ (by
      intro w eff s' ⟨g1, g2, g3, g4, g5, g6⟩ hm
      have hprop : ∀ sp, ProposalInput i w.st sp → PropKnown O mode lists s.height sp := by
        rintro sp (hi | ⟨_, hi⟩)
        · subst hi; exact hin hp
        · exact (g4.props.get hi).2.2
      have hst := g4.micro hm hprop (fun _ _ => trivial) (fun _ _ _ => trivial) (fun _ _ => trivial) (fun _ _ _ => trivial)
        (fun _ _ _ hi => absurd hi h1)
      have hlock : ∀ step lr lock, WalLockOf w.st lr lock → EffLocked (Plus O w.log) (.saveWal (walRec w.st step lock) true) := by
        intro step lr lock hl l hk
        have hk : lock = some l := hk
        cases lr with
        | none => have hl : lock = none := hl; rw [hl] at hk; cases hk
        | some r =>
          obtain ⟨qc, b, k1, k2, k3⟩ := hl
          rw [k3] at hk; cases hk
          show Plus O w.log w.st.height _ _
          rw [g2]; exact g5 _ _ k2
      have up : ∀ k x c, Plus O w.log k x c → Plus O (w.log ++ eff) k x c := Plus.mono fun y hy => List.mem_append_left _ hy
      have key : s'.consensusPower = true ∧ s'.height = s.height ∧ s'.authority = s.authority ∧
          (∀ h b, s'.hashWithBlock.get? h = some b → Plus O (w.log ++ eff) s.height h b) ∧ ∀ x ∈ eff, EffLocked (Plus O w.log) x := by
        have hb : ∀ h b, w.st.hashWithBlock.get? h = some b → Plus O (w.log ++ eff) s.height h b := fun x b hg => up _ _ _ (g5 x b hg)
        cases hm with
        | storeBlock sp hi hc hpr hh hr =>
          refine ⟨g1, g2, g3, ?_, by simp⟩
          intro x b hget
          dsimp only at hget
          rw [AMap.get?_insert] at hget
          split at hget
          · rename_i he
            cases hget
            rw [← he]
            refine .inl (hprop sp hi (hh.trans g2) ?_)
            have := hpr
            rw [g3, hau, hmo, hh, g2] at this
            exact this
          · exact hb x b hget
        | acceptProposal sp ps hi hc hpr hh hr hbk hs =>
          refine ⟨g1, g2, g3, hb, ?_⟩
          intro x hx
          simp only [List.mem_cons, List.not_mem_nil, or_false] at hx
          rcases hx with rfl | rfl <;> trivial
        | enterRound round lr lp f' hi =>
          refine ⟨g1, g2, g3, hb, ?_⟩
          intro x hx
          split at hx
          · cases hx
          · simp only [List.mem_singleton] at hx; subst hx; trivial
        | wal step lr lock ok hsv hl hi =>
          refine ⟨g1, g2, g3, hb, ?_⟩
          intro x hx
          simp only [List.mem_singleton] at hx
          subst hx
          cases ok with
          | false => trivial
          | true => exact hlock _ _ _ hl
        | ownBlock hash block hi hn hbk =>
          refine ⟨g1, g2, g3, ?_, ?_⟩
          · intro x b hget
            dsimp only at hget
            rw [AMap.get?_insert] at hget
            split at hget
            · rename_i he
              cases hget
              rw [← he]
              refine .inr ?_
              rw [← g2]; simp
            · exact hb x b hget
          · intro x hx; simp only [List.mem_singleton] at hx; subst hx; trivial
        | propose sp r lr lp f' hi hr0 hl hh hr ha hlk hs =>
          refine ⟨g1, g2, g3, hb, ?_⟩
          intro x hx
          simp only [List.mem_cons, List.not_mem_nil, or_false] at hx
          rcases hx with rfl | rfl | rfl
          · intro hne
            cases lr with
            | none => exact absurd hlk.1 hne
            | some k =>
              rw [hh, g2]; exact g5 _ _ hlk.2.1
          · trivial
          · trivial
        | castVote ty hash lr lock sv hsv hi hl =>
          refine ⟨g1, g2, g3, hb, ?_⟩
          intro x hx
          simp only [List.mem_cons, List.not_mem_nil, or_false] at hx
          rcases hx with rfl | rfl
          · exact hlock _ _ _ hl
          · split <;> trivial
        | castChoke sc lr lock hsv hi hl =>
          refine ⟨g1, g2, g3, hb, ?_⟩
          intro x hx
          simp only [List.mem_cons, List.not_mem_nil, or_false] at hx
          rcases hx with rfl | rfl
          · exact hlock _ _ _ hl
          · trivial
        | commitLost w' hsv hw hh hr => exact ⟨g1, g2, g3, hb, by simp [EffLocked]⟩
        | commit hash content qc hsv hi => rcases hi with hi | hi; exact absurd hi (h4 _); exact absurd hi h1
        | move status hi => rcases hi with hi | hi | ⟨h, hi⟩; exact absurd hi (h3 _); exact absurd hi h1; exact absurd hi (h4 _)
        | moveLost status hsv hi => rcases hi with hi | hi | ⟨h, hi⟩; exact absurd hi (h3 _); exact absurd hi h1; exact absurd hi (h4 _)
        | adopt status hsv hi => rcases hi with hi | hi | ⟨h, hi⟩; exact absurd hi (h3 _); exact absurd hi h1; exact absurd hi (h4 _)
        | walLost hi => exact absurd hi h1
        | restorePos w b hi => exact absurd hi h1
        | restoreLeader _ _ hi => exact absurd hi h1
        | restoreFrom w b hi => exact absurd hi h1
        | restoreLock w b lock hi => exact absurd hi h1
        | walTrigger w b hi => exact absurd hi h1
        | forward m hi => exact absurd hi (h2 _)
        | verify m hi => exact absurd hi (h2 _)
        | _ => exact ⟨g1, g2, g3, hb, by simp [EffLocked]⟩
      obtain ⟨k1, k2, k3, k4, k5⟩ := key
      exact ⟨k1, k2, k3, hst, k4, g6.append k5⟩)
  obtain ⟨k1, k2, k3, k4, k5, k6⟩ := this
  refine ⟨⟨fun _ => ?_, fun _ => ?_⟩, k6⟩
  · rw [k2]; exact k5
  · rw [k2]; exact k4.mono (fun _ h1 h2 h3 => .inl (h1 h2 h3)) (fun _ h => h) (fun _ h => h)

theorem moves_known {O : Known T} {mode : LeaderMode} {lists : Nat → List Node} {e : Env T} {s : State T} {status : Status} {w : World T}
    (hf : Filed s) (h : StKnown O mode lists s) (hs : ∀ b, e.walSave b = true) (m : Moves e s status w) :
    StKnown O mode lists w.st ∧ ∀ x ∈ w.log, EffKnown O x := by
  cases m with
  | stay => exact ⟨h, by simp⟩
  | away hh hp => exact ⟨⟨fun hp' => absurd (show status.isConsensusNode s.address = true from hp') (by simp [hp]),
      fun hp' => absurd (show status.isConsensusNode s.address = true from hp') (by simp [hp])⟩, by simp⟩
  | lost hh hp hs' => obtain ⟨b, _, hb⟩ := hs'; rw [hs b] at hb; cases hb
  | adopt hh hp hs' =>
    refine ⟨⟨fun _ x b hg => ?_, fun _ => ?_⟩, ?_⟩
    · simp [State.adopted, AMap.get?] at hg
    · refine ⟨fun p hp q hq => ?_, (hf.adopted e.sh status).votes⟩
      obtain ⟨a, b, _⟩ := hf.props p (mem_adopted_proposals hp) q hq
      exact ⟨a, b, fun hh => absurd (a.symm.trans hh) (adopted_proposals_ne hp)⟩
    · intro x hx
      simp only [List.cons_append, List.mem_cons, List.mem_append, List.mem_map, List.not_mem_nil, or_false] at hx
      rcases hx with rfl | ⟨m, hm, rfl⟩ | rfl
      · intro l hl; cases hl
      · trivial
      · trivial

theorem commit_known {O : Known T} {mode : LeaderMode} {lists : Nat → List Node} {e : Env T} {s : State T} {hash : Hash} {w : World T}
    (hf : Filed s) (h : StKnown O mode lists s) (hp : s.consensusPower = true) (hs : ∀ b, e.walSave b = true) (o : CommitOut e s hash w) :
    StKnown O mode lists w.st ∧ ∀ x ∈ w.log, EffKnown O x := by
  have h2 : ∀ content qc res, s.hashWithBlock.get? hash = some content → s.votes.getQcByHash s.height hash .precommit = some qc →
      ∀ x ∈ [Effect.saveWal (commitRec s qc content) true, .commitCall s.height (mkCommit s hash content qc) res], EffKnown O x := by
    intro content qc res hb hq x hx
    have e1 : qc.blockHash = hash := (hf.votes.getQcByHash hq).2.1
    have e2 := h.blocks hp _ _ hb
    simp only [List.mem_cons, List.not_mem_nil, or_false] at hx
    rcases hx with rfl | rfl
    · intro l hl
      cases hl
      show O _ qc.blockHash _
      rw [e1]
      exact e2
    · exact e2
  have h3 : ∀ status : Status, StKnown O mode lists { s with authority := Authority.update status.authorityList } :=
    fun _ => ⟨h.blocks, fun hp => ⟨(h.props hp).props, (h.props hp).votes⟩⟩
  have h4 : ∀ status : Status, Filed { s with authority := Authority.update status.authorityList } := fun _ => ⟨hf.props, hf.votes⟩
  cases o with
  | none => exact ⟨h, by simp⟩
  | lost content qc hb hq hs' => obtain ⟨b, _, hb⟩ := hs'; rw [hs b] at hb; cases hb
  | failed content qc hb hq hs' hc' => exact ⟨h, h2 content qc _ hb hq⟩
  | stuck content qc st x hb hq hs' hc' hx => exact ⟨h3 st, h2 content qc _ hb hq⟩
  | done content qc st w hb hq hs' hc' hm =>
    obtain ⟨g1, g2⟩ := moves_known (h4 st) (h3 st) hs hm
    refine ⟨g1, fun x hx => ?_⟩
    rcases List.mem_append.1 hx with hx | hx
    · exact h2 content qc _ hb hq x hx
    · exact g2 x hx

/-- With the answers of `get_block`, all proposals are known. -/
theorem Justified.known {O : Known T} {e : Env T} {s : State T} {l : List (Effect T)} (h : Justified O l) (ha : Asked e s l) (j : Nat) :
    ∀ x ∈ l.take j, EffKnown (Plus O (l.take j)) x := by
  intro x hx
  have := h j x hx
  cases x with
  | saveWal w ok => cases ok with
    | false => trivial
    | true => exact this
  | broadcast m => cases m with
    | signedProposal sp =>
      show Plus O _ _ _ _
      by_cases hl : sp.proposal.lock = none
      · exact .inr (ha.proposes j sp hx hl)
      · exact this hl
    | _ => trivial
  | commitCall k c r => exact this
  | _ => trivial

/-- Any input of a running node, cut anywhere. -/
theorem arm_known {O : Known T} {mode : LeaderMode} {lists : Nat → List Node} {e : Env T} {i : Input T} {s : State T} (hi : i ≠ .start)
    (hf : Filed s) (hau : s.consensusPower = true → s.authority = Authority.update (lists s.height)) (hmo : e.mode = mode)
    (h : StKnown O mode lists s) (hin : InKnown O mode lists s i) (hs : ∀ b, e.walSave b = true) :
    StKnown (Plus O (runArm i e ⟨s, []⟩).2.log) mode lists (runArm i e ⟨s, []⟩).2.st ∧
      ∀ j, ∀ x ∈ (runArm i e ⟨s, []⟩).2.log.take j, EffKnown (Plus O ((runArm i e ⟨s, []⟩).2.log.take j)) x := by
  have lift : ∀ w : World T, StKnown O mode lists w.st ∧ (∀ x ∈ w.log, EffKnown O x) →
      StKnown (Plus O w.log) mode lists w.st ∧ ∀ j, ∀ x ∈ w.log.take j, EffKnown (Plus O (w.log.take j)) x := by
    rintro w ⟨k1, k2⟩
    exact ⟨k1.mono fun _ _ _ h => .inl h, fun j x hx => (k2 x (List.mem_of_mem_take hx)).mono fun _ _ _ h => .inl h⟩
  by_cases hm : MoveInput i
  · apply lift
    rcases hm with h' | ⟨m, rfl⟩ | ⟨st, rfl⟩ | ⟨x, rfl⟩
    · exact absurd h' hi
    · obtain ⟨g1, g2⟩ := raw_auth (e := e) (m := m) (s := s)
      rw [g1]
      refine ⟨h, fun x hx => ?_⟩
      rcases g2 with g | ⟨g, _⟩ | ⟨g, _⟩
      · rw [g] at hx; cases hx
      · rw [g] at hx; simp at hx; subst hx; trivial
      · rw [g] at hx; simp at hx; subst hx; trivial
    · exact moves_known hf h hs (status_moves e s st)
    · by_cases h' : s.consensusPower = false ∨ s.stopped = true
      · rw [event_idle h']; exact ⟨h, by simp⟩
      · simp only [not_or, Bool.not_eq_false, Bool.not_eq_true] at h'
        have o := event_out e s (.commit x) h'.1 h'.2
        generalize (runArm (.event (.commit x)) e ⟨s, []⟩).2 = w at *
        cases o with
        | commit _ o => exact commit_known hf h h'.1 hs o
  · cases hp : s.consensusPower with
    | false => apply lift; rw [idle_input hm hp]; exact ⟨h, by simp⟩
    | true =>
      obtain ⟨k1, k2⟩ := quiet_known (e := e) hm hp (hau hp) hmo h hin
      exact ⟨k1, k2.known arm_asked⟩

theorem start_known {O : Known T} {mode : LeaderMode} {lists : Nat → List Node} {e : Env T} {addr : Address} {p : StartParams}
    (hw : (p.list.map Node.address).contains addr = true → ∀ b (w : WalInfo T), e.walLoad = some (some b) → decWalInfo b = .ok w →
      ∀ l, w.lock = some l → O w.height l.lockVotes.blockHash l.content)
    (hs : ∀ b, e.walSave b = true) :
    StKnown O mode lists (runArm .start e ⟨(State.new addr p.initHeight p.interval p.list : State T), []⟩).2.st ∧
      ∀ x ∈ (runArm .start e ⟨(State.new addr p.initHeight p.interval p.list : State T), []⟩).2.log, EffKnown O x := by
  have hpow : (State.new addr p.initHeight p.interval p.list : State T).consensusPower = true → (p.list.map Node.address).contains addr = true := by
    intro h; rw [new_power] at h; exact h
  have hst0 : ∀ Pp, Store Pp (fun _ => True) (fun _ => True) (State.new addr p.initHeight p.interval p.list : State T) := fun _ => Store.new ..
  have q3 := brake_spawn (e := e) (s := (State.new addr p.initHeight p.interval p.list : State T))
  have o := start_out e (State.new addr p.initHeight p.interval p.list : State T)
  have hnew : (State.new addr p.initHeight p.interval p.list : State T).hashWithBlock = [] := rfl
  have h0 : StKnown O mode lists (State.new addr p.initHeight p.interval p.list : State T) :=
    ⟨fun _ h b hg => by simp [State.new, AMap.get?] at hg, fun _ => hst0 _⟩
  have hasked := arm_asked (e := e) (s := (State.new addr p.initHeight p.interval p.list : State T)) (i := .start)
  have hplain : ∀ sp, .broadcast (.signedProposal sp) ∉ (runArm .start e ⟨(State.new addr p.initHeight p.interval p.list : State T), []⟩).2.log := by
    intro sp hx
    obtain ⟨s1, eff, s2, -, hm, hx⟩ := arm_effect (P := fun _ => True) trivial (fun _ _ _ _ _ => trivial) hx
    cases hm with
    | propose sp r lr lp f hi => obtain ⟨_, _, _, hi⟩ := hi; cases hi
    | enterRound => split at hx <;> simp at hx
    | castVote => split at hx <;> simp at hx
    | _ => simp at hx
  generalize (State.new addr p.initHeight p.interval p.list : State T) = s at *
  generalize (runArm .start e ⟨s, []⟩).2 = w at *
  have hrest : ∀ b (rec : WalInfo T) q, s.consensusPower = true → e.walLoad = some (some b) → decWalInfo b = .ok rec →
      StKnown O mode lists (s.restored rec q) ∧ Filed (s.restored rec q) := by
    intro b rec q hp hl hd
    have hr := hw (hpow hp) b rec hl hd
    unfold State.restored
    split
    · refine ⟨⟨?_, fun _ => ⟨(hst0 _).props, (hst0 (fun _ => True)).votes⟩⟩, ⟨(hst0 _).props, (hst0 (fun _ => True)).votes⟩⟩
      intro _ h b hg; dsimp only at hg; rw [hnew] at hg; simp [AMap.get?] at hg
    · rename_i lock hk
      refine ⟨⟨?_, fun _ => ⟨(hst0 _).props, (hst0 (fun _ => True)).votes.setQc trivial⟩⟩, ⟨(hst0 _).props, (hst0 (fun _ => True)).votes.setQc trivial⟩⟩
      intro _ h b hg
      dsimp only at hg ⊢
      rw [AMap.get?_insert] at hg
      split at hg
      · rename_i he
        cases hg
        rw [← he]; exact hr lock hk
      · rw [hnew] at hg; simp [AMap.get?] at hg
  cases o with
  | idle hw' => subst hw'; exact ⟨h0, by simp⟩
  | fresh _ _ _ hw' => subst hw'; exact ⟨h0, by simp [EffKnown]⟩
  | noLeader b rec x hp hl hd hx hw' =>
    subst hw'
    refine ⟨⟨?_, fun _ => ⟨(hst0 _).props, (hst0 (fun _ => True)).votes⟩⟩, by simp⟩
    intro _ h b hg; dsimp only at hg; rw [hnew] at hg; simp [AMap.get?] at hg
  | noLock b rec q hp hl hd hx hst hk hw' => subst hw'; exact ⟨(hrest b rec q hp hl hd).1, by simp⟩
  | resume b rec q hp hl hd hx hst hk hw' => subst hw'; exact ⟨(hrest b rec q hp hl hd).1, by simp [EffKnown]⟩
  | commit b rec q lock hp hl hd hx hst hk o =>
    have hpw : (s.restored rec q).consensusPower = true := by rw [(restored_pos s rec q).2.2.1]; exact hp
    exact commit_known (hrest b rec q hp hl hd).2 (hrest b rec q hp hl hd).1 hpw hs o
  | brake b rec q hp hl hd hx hst w1 o hw' =>
    obtain ⟨hr, hfr⟩ := hrest b rec q hp hl hd
    have hpw : (s.restored rec q).consensusPower = true := by rw [(restored_pos s rec q).2.2.1]; exact hp
    have est : w.st = w1.st := by rcases hw' with rfl | rfl <;> rfl
    have eobs : obs w.log = obs w1.log := by
      rcases hw' with rfl | rfl
      · rfl
      · rw [obs_append]
        simp [obs, obsOf, walTrig, stTrigger]
    obtain ⟨k1, k2, k3, k4, k5, _, _⟩ := o.keep
    refine ⟨⟨fun _ h b hg => ?_, fun _ => ?_⟩, ?_⟩
    · rw [est, k2] at hg
      rw [est, o.same.height]
      exact hr.blocks hpw h b hg
    · have hx := hr.props hpw
      rw [est, o.same.height]
      exact ⟨by rw [k5]; exact hx.props, by rw [k1]; exact hx.votes⟩
    · intro x hx
      cases x with
      | saveWal r ok =>
        cases ok with
        | false => trivial
        | true =>
          have h1 : .save r ∈ obs w.log := List.mem_filterMap.2 ⟨_, hx, rfl⟩
          rw [eobs] at h1
          rcases o.out with h | ⟨lock, hl, h⟩
          · rw [h] at h1; cases h1
          · rw [h] at h1; simp at h1; subst h1
            intro l hk
            have hk : lock = some l := hk
            cases hlr : rec.lock.map WalLock.lockRound with
            | none => rw [hlr] at hl; have hl : lock = none := hl; rw [hl] at hk; cases hk
            | some r =>
              rw [hlr] at hl
              obtain ⟨qc, b, j1, j2, j3⟩ := hl
              rw [j3] at hk; cases hk
              exact hr.blocks hpw _ _ j2
      | commitCall k c r =>
        have : .call k c r ∈ obs w.log := List.mem_filterMap.2 ⟨_, hx, rfl⟩
        rw [eobs] at this
        rcases o.out with h | ⟨lock, hl, h⟩
        · rw [h] at this; cases this
        · rw [h] at this; simp at this
      | broadcast m => cases m with
        | signedProposal sp => exact absurd hx (hplain sp)
        | _ => trivial
      | _ => trivial

end Origin
end Overlord
