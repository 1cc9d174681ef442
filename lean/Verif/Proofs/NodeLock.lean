import Verif.Proofs.NodeGenuine

/-! The votes a running node releases are justified (used for C43, C44). -/

set_option linter.unusedSimpArgs false
set_option linter.unusedVariables false
set_option linter.unusedSectionVars false
set_option linter.unnecessarySeqFocus false

namespace Overlord
open M Spec

variable {T : Type} [ContentCodec T] [DecidableEq T]

/-! ## What is on disk -/

/-- The precommits are remembered by the record saved last. -/
def DiskOk (B : Certs) (o : List (Obs T)) : Prop :=
  ∀ w, (obsSaves o).getLast? = some w → w.step ≠ .commit → ∀ v ∈ obsVotes o, ∀ x r, x ≠ [] →
    v.vote = ⟨w.height, r, .precommit, x⟩ → Covers B w.height x r (w.lock.map WalLock.lockRound)

theorem DiskOk.mono {B B' : Certs} (hB : ∀ ty k r x, B ty k r x → B' ty k r x) {o : List (Obs T)} (h : DiskOk B o) : DiskOk B' o :=
  fun w h1 h2 v h3 x r h4 h5 => (h w h1 h2 v h3 x r h4 h5).mono hB

theorem disk_save {B : Certs} {o : List (Obs T)} {w : WalInfo T} (hw : w.step ≠ .commit → ∀ v ∈ obsVotes o, ∀ x r, x ≠ [] →
    v.vote = ⟨w.height, r, .precommit, x⟩ → Covers B w.height x r (w.lock.map WalLock.lockRound)) : DiskOk B (o ++ [.save w]) := by
  have e1 : obsVotes (o ++ [.save w]) = obsVotes o := by simp [obsVotes]
  have e2 : obsSaves (o ++ [.save w]) = obsSaves o ++ [w] := by simp [obsSaves]
  intro w' h1
  rw [e2, List.getLast?_append] at h1
  simp at h1
  subst h1
  rw [e1]; exact hw

theorem disk_vote {B : Certs} {o : List (Obs T)} {w : WalInfo T} {sv : SignedVote}
    (hw : w.step ≠ .commit → ∀ v, v ∈ obsVotes o ∨ v = sv → ∀ x r, x ≠ [] →
    v.vote = ⟨w.height, r, .precommit, x⟩ → Covers B w.height x r (w.lock.map WalLock.lockRound)) : DiskOk B (o ++ [.save w] ++ [.vote sv]) := by
  have e1 : obsVotes (o ++ [.save w] ++ [.vote sv]) = obsVotes o ++ [sv] := by simp [obsVotes]
  have e2 : obsSaves (o ++ [.save w] ++ [.vote sv]) = obsSaves o ++ [w] := by simp [obsSaves]
  intro w' h1 h2 v hv
  rw [e2, List.getLast?_append] at h1
  simp at h1
  subst h1
  rw [e1] at hv
  refine hw h2 v ?_
  rcases List.mem_append.1 hv with hv | hv
  · exact .inl hv
  · exact .inr (List.mem_singleton.1 hv)

theorem disk_other {B : Certs} {o : List (Obs T)} (h : DiskOk B o) (x : Obs T) (hx : ∀ v, x ≠ .vote v) (hs : ∀ w, x ≠ .save w) :
    DiskOk B (o ++ [x]) := by
  have e1 : obsVotes (o ++ [x]) = obsVotes o := by cases x <;> simp_all [obsVotes]
  have e2 : obsSaves (o ++ [x]) = obsSaves o := by cases x <;> simp_all [obsSaves]
  unfold DiskOk; rw [e1, e2]; exact h

/-- After every prefix. -/
def DiskAll (B : Certs) (o l : List (Obs T)) : Prop := ∀ k, DiskOk B (o ++ l.take k)

theorem diskAll_nil {B : Certs} {o : List (Obs T)} (h : DiskOk B o) : DiskAll B o [] := fun k => by simpa using h

theorem diskAll_cons {B : Certs} {o : List (Obs T)} {x : Obs T} {l : List (Obs T)} (h : DiskOk B o) (h' : DiskAll B (o ++ [x]) l) :
    DiskAll B o (x :: l) := by
  intro k
  cases k with
  | zero => simpa using h
  | succ k => have := h' k; simpa using this

theorem diskAll_append {B : Certs} {o : List (Obs T)} {l l' : List (Obs T)} (h : DiskAll B o l) (h' : DiskAll B (o ++ l) l') :
    DiskAll B o (l ++ l') := by
  intro k
  by_cases hk : k ≤ l.length
  · rw [List.take_append_of_le_length hk]; exact h k
  · have := h' (k - l.length)
    rw [List.append_assoc] at this
    rw [List.take_append, List.take_of_length_le (by omega)]
    exact this

theorem DiskAll.all {B : Certs} {o l : List (Obs T)} (h : DiskAll B o l) : DiskOk B (o ++ l) := by
  have := h l.length; rwa [List.take_length] at this

theorem moves_disk {B : Certs} {o : List (Obs T)} {e : Env T} {s : State T} {status : Status} {w : World T} (h : DiskOk B o)
    (hV : ∀ v ∈ obsVotes o, v.vote.height ≤ s.height) (m : Moves e s status w) : DiskAll B o (obs w.log) := by
  cases m with
  | adopt hh hp hs =>
    dsimp only
    rw [obs_adopt _ _ _ _ status.toSMR rfl]
    have g : DiskOk B (o ++ [.save (walRec (s.moved status) .propose none)]) := disk_save fun _ v hv x r _ he => by
      have h1 := hV v hv
      have h2 : v.vote.height = status.height := by rw [he]; rfl
      omega
    exact diskAll_cons h (diskAll_cons g (diskAll_nil (disk_other g _ (by simp) (by simp))))
  | _ => exact diskAll_nil h

theorem commit_disk {B : Certs} {o : List (Obs T)} {e : Env T} {s : State T} {hash : Hash} {w : World T} (h : DiskOk B o)
    (hV : ∀ v ∈ obsVotes o, v.vote.height ≤ s.height) (c : CommitOut e s hash w) :
    DiskAll B o (obs w.log) := by
  have g1 : ∀ qc content, DiskOk B (o ++ [.save (commitRec s qc content)]) := fun qc content =>
    disk_save fun h => absurd rfl h
  have g2 : ∀ qc content k c r, DiskAll B o [.save (commitRec s qc content), .call k c r] := fun qc content k c r =>
    diskAll_cons h (diskAll_cons (g1 qc content) (diskAll_nil (disk_other (g1 qc content) _ (by simp) (by simp))))
  cases c with
  | none => exact diskAll_nil h
  | lost => exact diskAll_nil h
  | failed content qc => exact g2 qc content _ _ _
  | stuck content qc => exact g2 qc content _ _ _
  | done content qc status w hb hq hs hc hm =>
    dsimp only
    rw [obs_append]
    have g3 := g2 qc content s.height (mkCommit s hash content qc) (some status)
    refine diskAll_append g3 (moves_disk g3.all ?_ hm)
    intro v hv
    have hv : v ∈ obsVotes o := by
      have : obsVotes (o ++ [Obs.save (commitRec s qc content), .call s.height (mkCommit s hash content qc) (some status)]) = obsVotes o := by
        simp [obsVotes]
      rw [← this]; exact hv
    exact hV v hv

/-! ## The invariant of a running node -/

/-- The precommits a node has released in its height. -/
def Done (n : NodeSys T) (x : Hash) (r : Nat) : Prop :=
  x ≠ [] ∧ ∃ v ∈ votesOf n.log, v.vote = ⟨n.st.height, r, .precommit, x⟩

/-- What a running node remembers. -/
structure Memory (B : Certs) (n : NodeSys T) : Prop where
  smr : SmrOk B n.sys.smr
  evs : ∀ ev ∈ n.stQ, EvOk B ev
  trig : ∀ t ∈ n.sys.trigQ, TrigCert B t
  brk : ∀ h r lr, .brake h r lr ∈ n.stQ → h ≤ n.sys.smr.height
  chain : n.st.consensusPower = true → n.sys.smr.height = n.st.height →
    ∃ p, (∀ v ∈ votesOf n.log, Pos.le (votePos v) p) ∧ LChain B n.st.height (Done n) p n.stQ n.sys.smr

theorem Memory.mono {B B' : Certs} (hB : ∀ ty k r x, B ty k r x → B' ty k r x) {n : NodeSys T} (h : Memory B n) : Memory B' n :=
  ⟨h.smr.mono hB, fun ev hev => (h.evs ev hev).mono hB, fun t ht => (h.trig t ht).mono hB, h.brk, fun h1 h2 =>
    let ⟨p, h3, h4⟩ := h.chain h1 h2
    ⟨p, h3, LChain.mono hB _ _ _ _ (fun _ _ h => h) h4⟩⟩

theorem lock_frame {B : Certs} {n n' : NodeSys T} (h : Memory B n) (h1 : n'.log = n.log) (h2 : n'.st = n.st)
    (h3 : n'.sys.smr = n.sys.smr) (h4 : n'.stQ = n.stQ)
    (h5 : ∀ t ∈ n'.sys.trigQ, t ∈ n.sys.trigQ ∨ TrigCert B t) : Memory B n' := by
  have hd : Done n' = Done n := by funext x r; unfold Done; rw [h1, h2]
  refine ⟨by rw [h3]; exact h.smr, by rw [h4]; exact h.evs, fun t ht => ?_, by rw [h4, h3]; exact h.brk, by rw [h2, h3, h1, hd, h4]; exact h.chain⟩
  rcases h5 t ht with h5 | h5
  · exact h.trig t h5
  · exact h5

theorem timer_cert {B : Certs} {tm : Timer} {e : SMREvent} {t : SMRTrigger} (h : tm.trigger e = some t) : TrigCert B t := by
  have : t.source = .timer := by
    cases e <;> simp only [Timer.trigger] at h
    all_goals first
      | (split at h <;> simp only [Option.some.injEq, reduceCtorEq] at h; subst h; rfl)
      | cases h
  intro hs
  rw [this] at hs; cases hs

/-- Events of other heights do not matter as long as nothing has been precommitted. -/
theorem lchain_old {B : Certs} {H : Nat} {D : Hash → Nat → Prop} (hD : ∀ x r, ¬ D x r) {m : Smr} :
    ∀ (evs : List SMREvent) p, (∀ ev ∈ evs, ∀ h, orderHeight ev = some h → h < H) →
      ∀ tail, LChain B H D p tail m → LChain B H D p (evs ++ tail) m := by
  intro evs
  induction evs with
  | nil => intro p _ tail ht; exact ht
  | cons ev evs ih =>
    intro p hev tail htl
    have ih' := ih p (fun ev' he' => hev ev' (List.mem_cons_of_mem _ he')) tail htl
    have h0 := hev ev (by simp)
    cases ev <;> simp only [LChain, List.cons_append, orderHeight, Option.some.injEq] at h0 ⊢
    · rw [if_neg (by have := h0 _ rfl; omega)]; exact ih'
    · rw [if_neg (by have := h0 _ rfl; omega)]; exact ih'
    · rw [if_neg (by have := h0 _ rfl; omega)]; exact ih'
    · exact ih'
    · split
      · exact ⟨fun x r hd => absurd hd (hD x r), ih'⟩
      · exact ih'
    · exact ih'

theorem brake_height {m : Smr} {t : SMRTrigger} (hw : NotWal t) {k r : Nat} {lr : Option Nat}
    (h : .brake k r lr ∈ (m.onTrigger t).outs.filterMap Out.toState) : k = (m.onTrigger t).next.height := by
  have hc := smr_case m t
  generalize m.onTrigger t = o at *
  cases hc with
  | wal w ht => exact absurd ht hw
  | _ => simp [Out.toState] at h <;> simp [h]

/-- The voting state machine handles a trigger. -/
theorem lock_smr {B : Certs} (hu : Uniq B) {p0 : Pos} {n n' : NodeSys T} {t : SMRTrigger} {q : List SMRTrigger} (hl : Live 0 p0 n)
    (h : Memory B n) (hq : n.sys.trigQ = t :: q) (hr : t.round < 2 ^ 64 - 1) (hn : NoSelf B n.sys.smr t)
    (h1 : n'.log = n.log) (h2 : n'.st = n.st) (h3 : n'.sys.smr = (n.sys.smr.onTrigger t).next)
    (h4 : n'.stQ = n.stQ ++ (n.sys.smr.onTrigger t).outs.filterMap Out.toState)
    (h5 : n'.sys.trigQ = q) : Memory B n' := by
  have hd : Done n' = Done n := by funext x r; unfold Done; rw [h1, h2]
  have ht := hl.trig t (by rw [hq]; simp)
  have htc := h.trig t (by rw [hq]; simp)
  obtain ⟨s1, s2⟩ := smr_ok ht.1 htc h.smr
  obtain ⟨g1, g2, g3⟩ := smr_heights (m := n.sys.smr) ht.1
  refine ⟨by rw [h3]; exact s1, ?_, ?_, ?_, ?_⟩
  · intro ev hev
    rw [h4] at hev
    rcases List.mem_append.1 hev with hev | hev
    · exact h.evs ev hev
    · exact s2 ev hev
  · intro t' ht'
    rw [h5] at ht'
    exact h.trig t' (by rw [hq]; exact List.mem_cons_of_mem _ ht')
  · intro k r lr hev
    rw [h4] at hev
    rw [h3]
    rcases List.mem_append.1 hev with hev | hev
    · exact Nat.le_trans (h.brk k r lr hev) g1
    · exact Nat.le_of_eq (brake_height ht.1 hev)
  · rw [h1, h2, h3, h4, hd]
    intro hp heq
    rcases g3 with g3 | ⟨st, g3, g4, g5, f, ni, nc, g6⟩
    · rw [g3] at heq
      obtain ⟨p, c1, c2⟩ := h.chain hp heq
      refine ⟨p, c1, lchain_append _ _ _ c2 fun D' p' hD' => ?_⟩
      rw [← heq] at hD' ⊢
      exact lchain_smr hu ht.1 hr g3 htc h.smr hn hD'
    · rw [g5] at heq
      simp only at heq
      have hlow := (ht.2 st g3).2.2 g4
      have hlow : ∀ v ∈ votesOf n.log, v.vote.height < st.height := by
        intro v hv; exact hlow v (by unfold votesFrom; simpa using hv)
      have hD : ∀ x r, ¬ Done n x r := by
        rintro x r ⟨_, v, hv, he⟩
        have := hlow v hv
        rw [he] at this
        simp only at this
        omega
      refine ⟨⟨n.st.height, 0, 0⟩, fun v hv => ?_, ?_⟩
      · have := hlow v hv
        simp only [votePos, Pos.le]; omega
      · rw [g5]
        refine lchain_old hD _ _ (fun ev hev hh ho => ?_) _ ?_
        · have := hl.evLe ev hev hh ho; omega
        · rw [g6]
          simp only [Out.toState, List.filterMap_cons, List.filterMap_nil, LChain, heq, if_true]
          exact ⟨fun x r hd => absurd hd (hD x r), fun x r hd => absurd hd (hD x r)⟩

/-! ## One step of the State's loop -/

theorem mem_step {B : Certs} {n n' : NodeSys T} {l : List (Effect T)} (h : Memory B n) (h3 : n'.sys.smr = n.sys.smr)
    (h5 : n'.sys.trigQ = n.sys.trigQ ++ trigsOf l) (hl : ∀ x ∈ l, EffGen B x) (h4 : ∀ ev ∈ n'.stQ, ev ∈ n.stQ)
    (hc : n'.st.consensusPower = true → n'.sys.smr.height = n'.st.height →
      ∃ p, (∀ v ∈ votesOf n'.log, Pos.le (votePos v) p) ∧ LChain B n'.st.height (Done n') p n'.stQ n'.sys.smr) : Memory B n' := by
  refine ⟨by rw [h3]; exact h.smr, fun ev hev => h.evs ev (h4 ev hev), fun t ht => ?_, fun k r lr hev => ?_, hc⟩
  · rw [h5] at ht
    rcases List.mem_append.1 ht with ht | ht
    · exact h.trig t ht
    · exact hl _ (mem_trigsOf.1 ht)
  · rw [h3]; exact h.brk k r lr (h4 _ hev)

/-- Nothing is released and the position stays. -/
theorem mem_same {B : Certs} {n n' : NodeSys T} {l : List (Effect T)} (h : Memory B n) (h1 : n'.log = n.log ++ l) (hv : votesOf l = [])
    (hs : SamePos n.st n'.st) (h3 : n'.sys.smr = n.sys.smr)
    (h5 : n'.sys.trigQ = n.sys.trigQ ++ trigsOf l) (hl : ∀ x ∈ l, EffGen B x) (h4 : ∀ ev ∈ n'.stQ, ev ∈ n.stQ)
    (hc : n.st.consensusPower = true → ∀ D p m, LChain B n.st.height D p n.stQ m → ∃ p', Pos.le p p' ∧ LChain B n.st.height D p' n'.stQ m) :
    Memory B n' := by
  have hvo : votesOf n'.log = votesOf n.log := by rw [h1, votesOf_append, hv, List.append_nil]
  have hd : Done n' = Done n := by funext x r; unfold Done; rw [hvo, hs.height]
  refine mem_step h h3 h5 hl h4 ?_
  rw [hs.power, hs.height, h3, hvo, hd]
  intro hp heq
  obtain ⟨p, c1, c2⟩ := h.chain hp heq
  obtain ⟨p', c3, c4⟩ := hc hp _ _ _ c2
  exact ⟨p', fun v hv => Pos.le_trans (c1 v hv) c3, c4⟩

theorem mem_move {B : Certs} {p0 : Pos} {n n' : NodeSys T} {e : Env T} {s : State T} {status : Status} {w : World T} {l : List (Effect T)}
    {ev0 : List SMREvent}
    (hlv : Live 0 p0 n) (h : Memory B n) (hs : SamePos n.st s) (o : Moves e s status w) (h1 : n'.log = n.log ++ l) (hv : votesOf l = [])
    (h2 : n'.st = w.st) (h3 : n'.sys.smr = n.sys.smr)
    (h5 : n'.sys.trigQ = n.sys.trigQ ++ trigsOf l) (hl : ∀ x ∈ l, EffGen B x) (h4 : n.stQ = ev0 ++ n'.stQ)
    (h4' : ∀ ev ∈ ev0, ∃ hash, ev = .commit hash) : Memory B n' := by
  have h4s : ∀ ev ∈ n'.stQ, ev ∈ n.stQ := by rw [h4]; exact fun ev hev => List.mem_append_right _ hev
  have up : s.height < status.height → n'.st.height = status.height → Memory B n' := by
    intro hlt he
    refine mem_step h h3 h5 hl h4s fun _ heq => ?_
    have := hlv.smrLe
    rw [h3, he] at heq
    have := hs.height
    omega
  cases o with
  | stay hh =>
    refine mem_same h h1 hv (by rw [h2]; exact hs) h3 h5 hl h4s ?_
    intro _ D p m hc
    refine ⟨p, Pos.le_refl _, ?_⟩
    rw [h4] at hc
    clear h4 h4s up
    induction ev0 with
    | nil => exact hc
    | cons ev evs ih =>
      obtain ⟨hash, rfl⟩ := h4' ev (by simp)
      exact ih (fun ev' h' => h4' ev' (List.mem_cons_of_mem _ h')) hc
  | away hh hp => exact up hh (by rw [h2]; rfl)
  | lost hh hp hs => exact up hh (by rw [h2]; rfl)
  | adopt hh hp hs => exact up hh (by rw [h2]; rfl)

/-- An order to vote. -/
def voteEv (ty : VoteType) (h r : Nat) (hash : Hash) (lr : Option Nat) : SMREvent :=
  match ty with
  | .prevote => .prevoteVote h r hash lr
  | .precommit => .precommitVote h r hash lr

/-- An order to vote: the vote is justified. -/
theorem vote_front {B : Certs} {p0 : Pos} {n : NodeSys T} {ty : VoteType} {h0 r0 : Nat} {hash : Hash} {lr : Option Nat} {q : List SMREvent}
    (hl : Live 0 p0 n) (h : Memory B n)
    (hq : n.stQ = voteEv ty h0 r0 hash lr :: q) (hh : h0 = n.st.height) (hp : n.st.consensusPower = true) :
    r0 = n.st.round ∧ Justified B (fun v => ∃ sv ∈ votesOf n.log, sv.vote = v) ⟨n.st.height, n.st.round, ty, hash⟩ ∧
    (∀ x r, Done n x r → Covers B n.st.height x r lr) ∧
    (ty = .precommit → hash ≠ [] → Covers B n.st.height hash n.st.round lr) ∧
    (∀ v ∈ votesOf n.log, Pos.lt (votePos v) ⟨n.st.height, n.st.round, ty.toStep.toNat⟩) ∧
    LChain B n.st.height (fun x r => Done n x r ∨ (ty = .precommit ∧ x = hash ∧ r = n.st.round ∧ hash ≠ []))
      ⟨n.st.height, n.st.round, ty.toStep.toNat⟩ q n.sys.smr := by
  subst hh
  have hv0 : votesFrom 0 n = votesOf n.log := by simp [votesFrom]
  have hin : n.sys.smr.height = n.st.height := by
    have := hl.evLe _ (by rw [hq]; exact List.mem_cons_self ..) n.st.height (by cases ty <;> rfl)
    have := hl.smrLe
    omega
  obtain ⟨p, c0, c1, c2⟩ := hl.chain hp hin
  rw [hv0] at c1
  have c3 : r0 = n.st.round ∧ Pos.lt p ⟨n.st.height, r0, ty.toStep.toNat⟩ := by
    rw [hq] at c2
    cases ty <;> simp only [voteEv, Chain, if_true] at c2 <;> exact ⟨c2.1, c2.2.1⟩
  obtain ⟨rfl, c4⟩ := c3
  have hold : ∀ v ∈ votesOf n.log, Pos.lt (votePos v) ⟨n.st.height, n.st.round, ty.toStep.toNat⟩ :=
    fun v hv => Pos.lt_of_le_of_lt (c1 v hv) c4
  have after : ∀ v', (∃ sv ∈ votesOf n.log, sv.vote = v') → Pos.lt (votePosOf v') (votePosOf ⟨n.st.height, n.st.round, ty, hash⟩) := by
    rintro v' ⟨sv, hsv, rfl⟩; exact hold sv hsv
  obtain ⟨p', d1, d2⟩ := h.chain hp hin
  rw [hq] at d2
  refine ⟨rfl, ?_⟩
  cases ty with
  | prevote =>
    simp only [voteEv, LChain, if_true] at d2
    obtain ⟨d3, d4⟩ := d2
    refine ⟨⟨after, ?_, by simp⟩, fun x r hd => (d3 x r hd).1, by simp, hold, ?_⟩
    · rintro _ x r hx ⟨sv, hsv, he⟩ hne
      exact (d3 x r ⟨hx, sv, hsv, he⟩).2 hne
    · exact LChain.mono (fun _ _ _ _ h => h) _ _ _ _ (by rintro x r (h | ⟨h, _⟩); exact h; cases h) d4
  | precommit =>
    simp only [voteEv, LChain, if_true] at d2
    obtain ⟨d3, d4, d5⟩ := d2
    refine ⟨⟨after, by simp, ?_⟩, d3, fun _ hz => (d4 hz).1, hold, ?_⟩
    · intro _ hz
      rcases (d4 hz).2 with h | ⟨q, h1, h2, h3⟩
      · exact .inl h
      · refine .inr ⟨q, h1, h2, ?_⟩
        rintro v' ⟨sv, hsv, rfl⟩
        exact Pos.le_trans (d1 sv hsv) h3
    · exact LChain.mono (fun _ _ _ _ h => h) _ _ _ _ (by rintro x r (h | ⟨_, h⟩); exact .inl h; exact .inr h) d5

/-- The node's own votes. -/
def Mine (n : NodeSys T) (v : Vote) : Prop := ∃ sv ∈ votesOf n.log, sv.vote = v

theorem lock_arm {lists : Nat → List Node} {V : SignedVote → Prop} {B : Certs} {p0 : Pos} {n n1 : NodeSys T} {a : Arm T} {e : Env T} {i : Input T}
    {cut : Option Nat} (hlv : Live 0 p0 n) (h : Memory B n) (hst : StGen lists V B n.st) (ok : InSync n (.arm a e cut))
    (ht : n.take a = some (i, n1)) (hdisk : DiskOk B (obs n.log)) :
    (votesOf (runArm i e ⟨n.st, []⟩).2.log = [] ∨ ∃ sv, votesOf (runArm i e ⟨n.st, []⟩).2.log = [sv] ∧ sv.voter = n.st.address ∧
      Justified B (Mine n) sv.vote) ∧
    DiskAll B (obs n.log) (obs (runArm i e ⟨n.st, []⟩).2.log) ∧
    ((n1.took cut (runArm i e ⟨n.st, []⟩)).down = false → (∀ x ∈ (runArm i e ⟨n.st, []⟩).2.log, EffGen B x) →
      Memory B (n1.took cut (runArm i e ⟨n.st, []⟩))) := by
  obtain ⟨hi, e1, e2, e3, e4⟩ := take_spec ht
  have hv0 : obsVotes (obs n.log) = votesOf n.log := (votesOf_obs _).symm
  have hvf : votesFrom 0 n = votesOf n.log := by simp [votesFrom]
  have hV : ∀ v ∈ obsVotes (obs n.log), v.vote.height ≤ n.st.height := by rw [hv0, ← hvf]; exact hlv.hV
  have key : (runArm i e ⟨n.st, []⟩).1 = .ok true → cut = none →
      ∀ n', n' = n1.took cut (runArm i e ⟨n.st, []⟩) →
      n'.log = n.log ++ (runArm i e ⟨n.st, []⟩).2.log ∧ n'.st = (runArm i e ⟨n.st, []⟩).2.st ∧ n'.sys.smr = n.sys.smr ∧
      n'.stQ = n1.stQ ∧ n'.sys.trigQ = n.sys.trigQ ++ trigsOf (runArm i e ⟨n.st, []⟩).2.log := by
    rintro _ rfl n' rfl
    simp [NodeSys.took, NodeSys.absorb, cutTo, e1, e2, e3]
  have hsub : ∀ ev ∈ n1.stQ, ev ∈ n.stQ := by
    intro ev hev
    rcases e4 with ⟨e4, _⟩ | ⟨_, ev', _, e4⟩
    · rw [e4] at hev; exact hev
    · rw [e4]; exact List.mem_cons_of_mem _ hev
  -- quiet outcomes
  have quiet : obs (runArm i e ⟨n.st, []⟩).2.log = [] → SamePos n.st (runArm i e ⟨n.st, []⟩).2.st →
      (n.st.consensusPower = true → ∀ D p m, LChain B n.st.height D p n.stQ m → ∃ p', Pos.le p p' ∧ LChain B n.st.height D p' n1.stQ m) →
      (votesOf (runArm i e ⟨n.st, []⟩).2.log = [] ∨ ∃ sv, votesOf (runArm i e ⟨n.st, []⟩).2.log = [sv] ∧ sv.voter = n.st.address ∧
        Justified B (Mine n) sv.vote) ∧
      DiskAll B (obs n.log) (obs (runArm i e ⟨n.st, []⟩).2.log) ∧
      ((n1.took cut (runArm i e ⟨n.st, []⟩)).down = false → (∀ x ∈ (runArm i e ⟨n.st, []⟩).2.log, EffGen B x) →
        Memory B (n1.took cut (runArm i e ⟨n.st, []⟩))) := by
    intro q1 q2 q4
    have hv : votesOf (runArm i e ⟨n.st, []⟩).2.log = [] := by rw [votesOf_obs, q1]; rfl
    refine ⟨.inl hv, by rw [q1]; exact diskAll_nil hdisk, fun hup heff => ?_⟩
    obtain ⟨hc, hr⟩ := took_up hup
    obtain ⟨k1, k2, k3, k4, k5⟩ := key hr hc _ rfl
    exact mem_same h k1 hv (by rw [k2]; exact q2) k3 k5 heff (by rw [k4]; exact hsub) (by rw [k4]; exact q4)
  rcases e4 with ⟨e4, e5⟩ | ⟨rfl, ev, rfl, e4⟩
  · cases arm_out e n.st i hi with
    | quiet q1 q2 q3 => exact quiet q1 q2 (fun _ D p m hc => ⟨p, Pos.le_refl _, by rw [e4]; exact hc⟩)
    | event ev hev => exact absurd hev (e5 ev)
    | status st hst' o =>
      have hv : votesOf (runArm i e ⟨n.st, []⟩).2.log = [] := moves_votes o
      refine ⟨.inl hv, moves_disk hdisk hV o, fun hup heff => ?_⟩
      obtain ⟨hc, hr⟩ := took_up hup
      obtain ⟨k1, k2, k3, k4, k5⟩ := key hr hc _ rfl
      exact mem_move (ev0 := []) hlv h (.refl _) o k1 hv k2 k3 k5 heff (by rw [k4, e4]; rfl) (by simp)
  · by_cases hidle : n.st.consensusPower = false ∨ n.st.stopped = true
    · have hq := event_idle (e := e) (ev := ev) hidle
      rcases hidle with hidle | hidle
      · exact quiet (by rw [hq]; rfl) (by rw [hq]; exact .refl _) (by simp [hidle])
      · refine ⟨.inl (by rw [hq]; rfl), by rw [hq]; exact diskAll_nil hdisk, fun hup => ?_⟩
        obtain ⟨_, hr⟩ := took_up hup
        rw [stopped_ends hidle] at hr
        cases hr
    · simp only [not_or, Bool.not_eq_false, Bool.not_eq_true] at hidle
      have hout := event_out e n.st ev hidle.1 hidle.2
      have hp := hidle.1
      have hgs := hst.store hp
      generalize hrun : runArm (.event ev) e ⟨n.st, []⟩ = res at *
      have hsync := fun h' => ok ev n1.stQ h' e4
      -- votes
      have vote : ∀ ty h0 r0 hash lr, n.stQ = voteEv ty h0 r0 hash lr :: n1.stQ → h0 = n.st.height → VoteOut n.st ty hash lr res.2 →
          (votesOf res.2.log = [] ∨ ∃ sv, votesOf res.2.log = [sv] ∧ sv.voter = n.st.address ∧ Justified B (Mine n) sv.vote) ∧
          DiskAll B (obs n.log) (obs res.2.log) ∧
          ((n1.took cut res).down = false → (∀ x ∈ res.2.log, EffGen B x) → Memory B (n1.took cut res)) := by
        intro ty h0 r0 hash lr hq hh o
        obtain ⟨f0, f1, f2, f3, f4, f5⟩ := vote_front hlv h hq hh hp
        refine ⟨?_, ?_, fun hup heff => ?_⟩
        · rcases o.out with ho | ⟨lock, sv, hl, hsv, hvt, ho⟩
          · exact .inl (by rw [votesOf_obs, ho]; rfl)
          · exact .inr ⟨sv, votesOf_single ho, hvt, by rw [hsv]; exact f1⟩
        · rcases o.out with ho | ⟨lock, sv, hl, hsv, hvt, ho⟩
          · rw [ho]; exact diskAll_nil hdisk
          · rw [ho]
            obtain ⟨_, hlk⟩ := walLock_gen (step := ty.toStep) (r := n.st.round) (u := n.st.updateFrom) hgs hl (by cases ty <;> simp [VoteType.toStep])
            have old : ∀ v ∈ obsVotes (obs n.log), ∀ x r, x ≠ [] → v.vote = ⟨n.st.height, r, .precommit, x⟩ →
                Covers B n.st.height x r (lock.map WalLock.lockRound) := by
              intro v hv x r hx he
              rw [hlk]; exact f2 x r ⟨hx, v, by rw [← hv0]; exact hv, he⟩
            refine diskAll_cons hdisk (diskAll_cons (disk_save fun _ => old) (diskAll_nil (disk_vote fun _ v hv => ?_)))
            rcases hv with hv | rfl
            · exact old v hv
            · intro x r hx he
              rw [hsv] at he
              simp only [walRec, Vote.mk.injEq, true_and] at he
              obtain ⟨rfl, rfl, rfl⟩ := he
              show Covers B n.st.height hash n.st.round (lock.map WalLock.lockRound)
              rw [hlk]; exact f3 rfl hx
        · obtain ⟨hc, hr⟩ := took_up hup
          obtain ⟨k1, k2, k3, k4, k5⟩ := key hr hc _ rfl
          refine mem_step h k3 k5 heff (by rw [k4]; exact hsub) fun _ _ => ?_
          have hs := o.same
          rw [← k2] at hs
          rw [hs.height, k3, k4]
          have hnew : ∀ v ∈ votesOf (n1.took cut res).log, v ∈ votesOf n.log ∨ v.vote = ⟨n.st.height, n.st.round, ty, hash⟩ := by
            intro v hv
            rw [k1, votesOf_append] at hv
            rcases List.mem_append.1 hv with hv | hv
            · exact .inl hv
            · rcases o.out with ho | ⟨lock, sv, hl, hsv, hvt, ho⟩
              · rw [votesOf_obs, ho] at hv; simp [obsVotes] at hv
              · rw [votesOf_single ho, List.mem_singleton] at hv
                subst hv; exact .inr hsv
          refine ⟨⟨n.st.height, n.st.round, ty.toStep.toNat⟩, fun v hv => ?_, LChain.mono (fun _ _ _ _ h => h) _ _ _ _ ?_ f5⟩
          · rcases hnew v hv with hv | hv
            · exact Pos.le_of_lt (f4 v hv)
            · simp only [votePos, hv]; exact Pos.le_refl _
          · rintro x r ⟨hx, v, hv, he⟩
            rw [hs.height] at he
            rcases hnew v hv with hv | hv
            · exact .inl ⟨hx, v, hv, he⟩
            · rw [hv] at he
              simp only [Vote.mk.injEq, true_and] at he
              obtain ⟨rfl, rfl, rfl⟩ := he
              exact .inr ⟨rfl, rfl, rfl, hx⟩
      cases hout with
      | newRound h0 r lr lp f ni nc o =>
        have hh : h0 = n.st.height := hsync _ rfl
        subst hh
        have hin : n.sys.smr.height = n.st.height := by
          have := hlv.evLe _ (by rw [e4]; exact List.mem_cons_self ..) n.st.height rfl
          have := hlv.smrLe
          omega
        obtain ⟨p, c1, c2⟩ := h.chain hp hin
        rw [e4] at c2
        simp only [LChain, if_true] at c2
        obtain ⟨c3, c4⟩ := c2
        obtain ⟨pl, l0, l1, l2⟩ := hlv.chain hp hin
        rw [e4] at l2
        simp only [Chain, if_true] at l2
        have hv : votesOf res.2.log = [] := by
          rw [votesOf_obs]
          rcases o.out with ho | ⟨lock, u, _, ho⟩ <;> rw [ho] <;> rfl
        refine ⟨.inl hv, ?_, fun hup heff => ?_⟩
        · rcases o.out with ho | ⟨lock, u, hl, ho⟩
          · rw [ho]; exact diskAll_nil hdisk
          · rw [ho]
            obtain ⟨_, hlk⟩ := walLock_gen (step := .propose) (r := r) (u := u) hgs hl (by simp)
            refine diskAll_cons hdisk (diskAll_nil (disk_save fun _ v hv x ρ hx he => ?_))
            show Covers B n.st.height x ρ (lock.map WalLock.lockRound)
            rw [hlk]; exact c3 x ρ ⟨hx, v, by rw [← hv0]; exact hv, he⟩
        · obtain ⟨hc, hr⟩ := took_up hup
          obtain ⟨k1, k2, k3, k4, k5⟩ := key hr hc _ rfl
          refine mem_step h k3 k5 heff (by rw [k4]; exact hsub) fun _ _ => ?_
          have hs := o.same
          rw [← k2] at hs
          have hvo : votesOf (n1.took cut res).log = votesOf n.log := by rw [k1, votesOf_append, hv, List.append_nil]
          have hd : Done (n1.took cut res) = Done n := by funext x r; unfold Done; rw [hvo, hs.height]
          rw [hs.height, k3, k4, hvo, hd]
          exact ⟨_, fun v hv => Pos.le_trans (l1 v (by rw [hvf]; exact hv)) l2.1, c4⟩
      | prevote h0 r hash lr o => exact vote .prevote h0 r hash lr e4 (hsync _ rfl) o
      | precommit h0 r hash lr o => exact vote .precommit h0 r hash lr e4 (hsync _ rfl) o
      | commit hash o =>
        have hv : votesOf res.2.log = [] := commit_votes o
        refine ⟨.inl hv, commit_disk hdisk hV o, fun hup heff => ?_⟩
        obtain ⟨hc, hr⟩ := took_up hup
        obtain ⟨k1, k2, k3, k4, k5⟩ := key hr hc _ rfl
        have same : SamePos n.st res.2.st → Memory B (n1.took cut res) := by
          intro hs
          refine mem_same h k1 hv (by rw [k2]; exact hs) k3 k5 heff (by rw [k4]; exact hsub) ?_
          intro _ D p m hc
          rw [e4] at hc
          exact ⟨p, Pos.le_refl _, by rw [k4]; exact hc⟩
        generalize hw : res.2 = w' at *
        cases o with
        | none => exact same (.refl _)
        | lost content qc => exact same (.refl _)
        | failed content qc => exact same (.refl _)
        | stuck content qc status x => exact same ⟨rfl, rfl, rfl⟩
        | done content qc status w hb hq hs hc hm =>
          exact mem_move (ev0 := [.commit hash]) (s := { n.st with authority := Authority.update status.authorityList }) hlv h ⟨rfl, rfl, rfl⟩ hm k1 hv k2 k3 k5 heff (by rw [k4, e4]; rfl) (by simp)
      | brake r lr o =>
        have hin : n.sys.smr.height = n.st.height := by
          have := h.brk _ _ _ (by rw [e4]; exact List.mem_cons_self ..)
          have := hlv.smrLe
          omega
        obtain ⟨p, c1, c2⟩ := h.chain hp hin
        rw [e4] at c2
        simp only [LChain, if_true] at c2
        obtain ⟨c3, c4⟩ := c2
        have hv : votesOf res.2.log = [] := by
          rw [votesOf_obs]
          rcases o.out with ho | ⟨lock, _, ho⟩ <;> rw [ho] <;> rfl
        refine ⟨.inl hv, ?_, fun hup heff => ?_⟩
        · rcases o.out with ho | ⟨lock, hl, ho⟩
          · rw [ho]; exact diskAll_nil hdisk
          · rw [ho]
            obtain ⟨_, hlk⟩ := walLock_gen (step := .brake) (r := n.st.round) (u := n.st.updateFrom) hgs hl (by simp)
            refine diskAll_cons hdisk (diskAll_nil (disk_save fun _ v hv x ρ hx he => ?_))
            show Covers B n.st.height x ρ (lock.map WalLock.lockRound)
            rw [hlk]; exact c3 x ρ ⟨hx, v, by rw [← hv0]; exact hv, he⟩
        · obtain ⟨hc, hr⟩ := took_up hup
          obtain ⟨k1, k2, k3, k4, k5⟩ := key hr hc _ rfl
          refine mem_same h k1 hv (by rw [k2]; exact o.same) k3 k5 heff (by rw [k4]; exact hsub) ?_
          intro _ D p m hc
          rw [e4] at hc
          simp only [LChain, if_true] at hc
          exact ⟨p, Pos.le_refl _, by rw [k4]; exact hc.2⟩
      | stale h0 r lr hh hw =>
        refine quiet (by rw [hw]; rfl) (by rw [hw]; exact .refl _) fun _ D p m hc => ?_
        rw [e4] at hc
        simp only [LChain, if_neg hh] at hc
        exact ⟨p, Pos.le_refl _, hc⟩
      | stop hw =>
        refine quiet (by rw [hw]; rfl) (by rw [hw]; exact .refl _) fun _ D p m hc => ?_
        rw [e4] at hc
        exact ⟨p, Pos.le_refl _, hc⟩

end Overlord
