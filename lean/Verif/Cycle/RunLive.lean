import Verif.Cycle.RunFair

/-!
# C86: fair executions complete every tag, the proof
-/

namespace ReactorC.Cycle.Run
open ReactorC
variable {S V : Type} {M : Federation S V} {x : Nat → S} {rank : Nat → Nat → Nat} {run : Nat → State S V}

theorem Fair.reached (F : Fair M x run) (i : Nat) : Reach M x (run i) := by
  induction i with
  | zero => exact F.reach
  | succ i ih =>
    rcases F.next i with h | h
    · rw [h]; exact ih
    · exact .step ih h

/-- If somebody can bring something about as long as it is not the case, it will be. -/
theorem Fair.eventually (F : Fair M x run) (a : Actor) (i0 : Nat) (G : Nat → Prop)
    (h : ∀ i, i0 ≤ i → ¬ G i → ∃ s', Does M a (run i) s') (hd : ∀ i, i0 ≤ i → ¬ G i → Does M a (run i) (run (i + 1)) → G (i + 1)) :
    ∃ i, i0 ≤ i ∧ G i := by
  by_contra hn
  have hn : ∀ i, i0 ≤ i → ¬ G i := fun i hi hg => hn ⟨i, hi, hg⟩
  obtain ⟨i, hi, hdo⟩ := F.fair a i0 fun i hi => h i hi (hn i hi)
  exact hn (i + 1) (by omega) (hd i hi (hn i hi) hdo)

theorem eventually_all {p : Nat → Nat → Prop} (n : Nat) (h : ∀ k < n, ∃ i0, ∀ i, i0 ≤ i → p k i) : ∃ i0, ∀ i, i0 ≤ i → ∀ k < n, p k i := by
  induction n with
  | zero => exact ⟨0, fun _ _ k hk => absurd hk (Nat.not_lt_zero k)⟩
  | succ n ih =>
    obtain ⟨a, ha⟩ := ih fun k hk => h k (by omega)
    obtain ⟨b, hb⟩ := h n (by omega)
    refine ⟨a + b, fun i hi k hk => ?_⟩
    by_cases e : k = n
    · subst e; exact hb i (by omega)
    · exact ha i (by omega) k (by omega)

/-- Federate `j` has got to tag number `m` and has executed its levels below `L`, or is at a later tag. -/
def At (M : Federation S V) (s : State S V) (j m L : Nat) : Prop := m < (s.fed j).n ∨ ((s.fed j).n = m ∧ L ≤ pos M.P j (s.fed j).pc)

theorem at_step (hw : WF M) {s s' : State S V} (h : Step M s s') {j m L : Nat} (ha : At M s j m L) : At M s' j m L := by
  unfold At at *
  rcases node_step hw h j with ⟨h1, h2, _⟩ | ⟨_, h⟩
  · rw [h1, h2]; exact ha
  · rcases h with ⟨h1, h2, h3⟩ | ⟨K, h1, _, h2, h3⟩ | ⟨K, h1, h2, h3⟩ | ⟨h1, h2, h3⟩
    · rw [h3, h2]; rw [h1] at ha; exact ha
    · rw [h3, h2]; rw [h1] at ha
      split <;> exact ha
    · rw [h3, h2]; rw [h1] at ha
      simp only [pos] at *
      omega
    · rw [h3]
      omega

theorem Fair.at_mono (F : Fair M x run) (hw : WF M) {i i' : Nat} (hi : i ≤ i') {j m L : Nat} (ha : At M (run i) j m L) : At M (run i') j m L := by
  induction hi with
  | refl => exact ha
  | @step i' _ ih =>
    rcases F.next i' with h | h
    · rw [h]; exact ih
    · exact at_step hw h ih

/-- What is on the way arrives. -/
theorem Fair.drain (F : Fair M x run) {k : Nat} (hk : k < M.P.nc) {Q : Tag × Option V → Prop} {i0 : Nat}
    (hnew : ∀ i, i0 ≤ i → ∀ L, ((run i).fed (M.P.conn k).src).pc = .passed L →
      ∀ e ∈ sendNow M.P (M.tau (M.arr k ((run i).fed (M.P.conn k).src).n)) k L ((run i).fed (M.P.conn k).src).st, Q e) :
    ∃ i1, i0 ≤ i1 ∧ ∀ i, i1 ≤ i → ∀ e ∈ (run i).chan k, Q e := by
  have key : ∀ (l1 : List (Tag × Option V)) i, i0 ≤ i → (∃ l2, (run i).chan k = l1 ++ l2 ∧ ∀ e ∈ l2, Q e) → ∃ i1, i ≤ i1 ∧ ∀ e ∈ (run i1).chan k, Q e := by
    intro l1
    induction l1 with
    | nil =>
      rintro i _ ⟨l2, h1, h2⟩
      exact ⟨i, Nat.le_refl _, by rw [h1]; exact h2⟩
    | cons a l1 ih =>
      intro i hi h
      have stays : (∀ i', i ≤ i' → ¬∃ l2, (run i').chan k = l1 ++ l2 ∧ ∀ e ∈ l2, Q e) →
          ∀ i', i ≤ i' → ∃ l2, (run i').chan k = (a :: l1) ++ l2 ∧ ∀ e ∈ l2, Q e := by
        intro hno i' hi'
        induction hi' with
        | refl => exact h
        | @step i' hi' ihi =>
          obtain ⟨l2, h1, h2⟩ := ihi
          rcases F.next i' with h | h
          · exact ⟨l2, by rw [h]; exact h1, h2⟩
          · rcases chan_step h k with h3 | ⟨L, h3, h4⟩ | ⟨e, h3⟩
            · exact ⟨l2, h3.trans h1, h2⟩
            · refine ⟨_, h4.trans (by rw [h1, List.append_assoc]), ?_⟩
              intro e he
              rcases List.mem_append.1 he with he | he
              · exact h2 e he
              · exact hnew i' (by simp only [Nat.le_eq] at hi'; omega) L h3 e he
            · rw [h1, List.cons_append] at h3
              have := (List.cons.inj h3).2
              have hi'' : i ≤ i' + 1 := by simp only [Nat.le_eq] at hi'; omega
              exact absurd ⟨l2, this.symm, h2⟩ (hno (i' + 1) hi'')
      have goal : ∃ i', i ≤ i' ∧ ∃ l2, (run i').chan k = l1 ++ l2 ∧ ∀ e ∈ l2, Q e := by
        by_contra hn
        have hn : ∀ i', i ≤ i' → ¬∃ l2, (run i').chan k = l1 ++ l2 ∧ ∀ e ∈ l2, Q e := fun i' hi' hg => hn ⟨i', hi', hg⟩
        obtain ⟨i', hi', hdo⟩ := F.fair (.arrive k) i fun i' hi' => by
          obtain ⟨l2, h1, _⟩ := stays hn i' hi'
          obtain ⟨t, o⟩ := a
          exact ⟨_, .deliver hk h1⟩
        obtain ⟨l2, h1, h2⟩ := stays hn i' hi'
        obtain ⟨e, he⟩ := does_arrive hdo
        rw [h1, List.cons_append] at he
        exact hn (i' + 1) (by omega) ⟨l2, (List.cons.inj he).2.symm, h2⟩
      obtain ⟨i', hi', hg⟩ := goal
      obtain ⟨i1, h1, h2⟩ := ih i' (by omega) hg
      exact ⟨i1, by omega, h2⟩
  obtain ⟨i1, h1, h2⟩ := key ((run i0).chan k) i0 (Nat.le_refl _) ⟨[], by simp, by simp⟩
  refine ⟨i1, h1, fun i hi => ?_⟩
  induction hi with
  | refl => exact h2
  | @step i hi ih =>
    have hi : i1 ≤ i := hi
    rcases F.next i with h | h
    · rw [h]; exact ih
    · rcases chan_step h k with h3 | ⟨L, h3, h4⟩ | ⟨e, h3⟩
      · rw [h3]; exact ih
      · rw [h4]
        intro e he
        rcases List.mem_append.1 he with he | he
        · exact ih e he
        · exact hnew i (by omega) L h3 e he
      · intro e' he'
        exact ih e' (by rw [h3]; exact List.mem_cons_of_mem _ he')

theorem send_tag {P : Prog S V} {g : Tag} {k L : Nat} {st : S} {e : Tag × Option V} (he : e ∈ sendNow P g k L st) : e.1 = g := by
  unfold sendNow at he
  rcases List.mem_append.1 he with he | he
  · split at he
    · rw [List.mem_singleton] at he; rw [he]
    · cases he
  · split at he
    · rw [List.mem_singleton] at he; rw [he]
    · cases he

theorem Fair.n_mono (F : Fair M x run) (hw : WF M) {i i' : Nat} (hi : i ≤ i') {j m : Nat} (ha : m ≤ ((run i).fed j).n) : m ≤ ((run i').fed j).n := by
  have h1 : At M (run i) j m 0 := by
    unfold At
    rcases Nat.lt_or_eq_of_le ha with h | h
    · exact .inl h
    · exact .inr ⟨h.symm, Nat.zero_le _⟩
  rcases F.at_mono hw hi h1 with h | h
  · omega
  · omega

/-- If all federates get to a tag, each gets past each of its levels at this tag. -/
theorem Fair.passes (F : Fair M x run) (hw : WF M) (ho : Ordered M rank) {m : Nat} (hm : ∀ j < M.P.n, ∃ i0, m ≤ ((run i0).fed j).n) :
    ∀ r j L, rank j L = r → j < M.P.n → L ≤ M.P.levels j → ∃ i0, At M (run i0) j m (L + 1) := by
  intro r
  induction r using Nat.strongRecOn with
  | ind r ih =>
  intro j L hr hj hL
  have ih : ∀ j' L', rank j' L' < rank j L → j' < M.P.n → L' ≤ M.P.levels j' → ∃ i0, At M (run i0) j' m (L' + 1) :=
    fun j' L' h1 h2 h3 => ih (rank j' L') (by omega) j' L' rfl h2 h3
  by_contra hno
  have hno : ∀ i, ¬ At M (run i) j m (L + 1) := fun i h => hno ⟨i, h⟩
  have inv : ∀ i, Inv M x (run i) := fun i => reach_inv hw (F.reached i)
  -- the federate is there, and stays
  have hthere : ∃ i0, At M (run i0) j m L := by
    cases L with
    | zero =>
      obtain ⟨i0, h⟩ := hm j hj
      refine ⟨i0, ?_⟩
      unfold At
      rcases Nat.lt_or_eq_of_le h with h | h
      · exact .inl h
      · exact .inr ⟨h.symm, Nat.zero_le _⟩
    | succ L => exact ih j L (ho.mono j L) hj (by omega)
  obtain ⟨i0, h0⟩ := hthere
  have stay : ∀ i, i0 ≤ i → ((run i).fed j).n = m ∧ pos M.P j ((run i).fed j).pc = L := by
    intro i hi
    have h1 := F.at_mono hw hi h0
    have h2 := hno i
    unfold At at h1 h2
    omega
  have nd : ∀ i, ((run i).fed j).pc ≠ .done := fun i => never_done (F.reached i) j
  -- what the grant needs
  have hset : ∀ k < M.P.nc, ∃ i1, ∀ i, i1 ≤ i → (M.P.conn k).dst = j → if cyc M k = true then SettledBefore M (run i) k m else Settled M (run i) k m := by
    intro k hk
    by_cases hd : (M.P.conn k).dst = j
    · by_cases hc : cyc M k = true
      · obtain ⟨a, ha⟩ := hm _ (hw.src k hk)
        have hn : ∀ i, a ≤ i → m ≤ ((run i).fed (M.P.conn k).src).n := fun i hi => F.n_mono hw hi ha
        obtain ⟨b, hb, hb'⟩ := F.drain hk (Q := fun e => M.tau m ≤ e.1) (i0 := a) (by
          intro i hi L _ e he
          rw [send_tag he, cyc_same hw hk hc]
          exact mono_le hw.tags (hn i hi))
        refine ⟨b, fun i hi _ => ?_⟩
        rw [if_pos hc]
        refine ⟨fun m' hm' => ?_, hb' i hi⟩
        rw [cyc_same hw hk hc] at hm'
        have := hn i (by omega)
        omega
      · have hpast : ∃ a, ∀ i, a ≤ i → ∀ m', M.arr k m' ≤ m → m' < ((run i).fed (M.P.conn k).src).n := by
          cases hdel : M.delayed k with
          | true =>
            obtain ⟨a, ha⟩ := hm _ (hw.src k hk)
            refine ⟨a, fun i hi m' hm' => ?_⟩
            have h1 : m ≤ ((run i).fed (M.P.conn k).src).n := F.n_mono hw hi ha
            have h2 := hw.later k hk hdel m'
            omega
          | false =>
            have he := ho.edge k hk hdel
            unfold exit entry at he
            rw [if_neg hc, if_neg hc, hd] at he
            have hle := rank_mono ho j (Nat.zero_le L)
            obtain ⟨a, ha⟩ := ih (M.P.conn k).src (M.P.levels (M.P.conn k).src) (by omega) (hw.src k hk) (Nat.le_refl _)
            refine ⟨a, fun i hi m' hm' => ?_⟩
            have h1 := F.at_mono hw hi ha
            have h2 := pos_le M.P ((inv i).fed _ (hw.src k hk))
            unfold view at h2
            dsimp only at h2
            rw [hw.same k hk hdel] at hm'
            unfold At at h1
            omega
        obtain ⟨a, ha⟩ := hpast
        obtain ⟨b, hb, hb'⟩ := F.drain hk (Q := fun e => M.tau m < e.1) (i0 := a) (by
          intro i hi L _ e he
          rw [send_tag he]
          refine mono_lt hw.tags ?_
          by_contra hlt
          have := ha i hi _ (Nat.le_of_not_lt hlt)
          omega)
        refine ⟨b, fun i hi _ => ?_⟩
        rw [if_neg hc]
        exact ⟨ha i (by omega), hb' i hi⟩
    · exact ⟨0, fun _ _ h => absurd h hd⟩
  obtain ⟨i1, h1⟩ := eventually_all M.P.nc hset
  -- the grant
  have hgrant : ∃ i, i0 + i1 ≤ i ∧ M.tau m ≤ ((run i).fed j).lv.lastTAG := by
    refine F.eventually (.grant j) (i0 + i1) _ (fun i hi hg => ?_) (fun i hi hg hdo => ?_)
    · have hg := Tag.not_le.1 hg
      have hn := (stay i (by omega)).1
      have hs := h1 i (by omega)
      by_cases hz : M.P.zdc j = true
      · exact ⟨_, .ptag hj hz (by rw [hn]; exact hg) (by rw [ptagIn_iff hw, hn]; exact hs)⟩
      · refine ⟨_, .tag (i := m) hj (by omega) (by rw [hn]; exact hg) fun k hk hd => ?_⟩
        have := hs k hk hd
        rw [if_neg] at this
        · exact this
        · unfold cyc
          rw [hd]
          simp [hz]
    · have := (does_grant hw hdo).2
      rw [(stay i (by omega)).1] at this
      exact this
  obtain ⟨i2, hi2, hg2⟩ := hgrant
  have hg : ∀ i, i2 ≤ i → M.tau m ≤ ((run i).fed j).lv.lastTAG := by
    intro i hi
    induction hi with
    | refl => exact hg2
    | @step i hi ih =>
      rcases F.next i with h | h
      · rw [h]; exact ih
      · rcases node_step hw h j with ⟨_, _, h3⟩ | ⟨h3, _⟩
        · exact Tag.le_trans ih h3
        · rw [h3]; exact ih
  -- the start
  have hstart : ∃ i, i2 ≤ i ∧ ((run i).fed j).pc ≠ .before := by
    refine F.eventually (.work j) i2 _ (fun i hi hb => ?_) (fun i hi hb hdo => ?_)
    · have hb : ((run i).fed j).pc = .before := by simpa using hb
      exact ⟨_, .start hj hb (by rw [(stay i (by omega)).1]; exact hg i hi)⟩
    · have hb : ((run i).fed j).pc = .before := by simpa using hb
      rcases (does_work hdo).2 with ⟨_, h2, _⟩ | ⟨K, h1, _⟩ | ⟨K, h1, _⟩ | ⟨h1, _⟩
      · rw [h2]; simp
      · rw [hb] at h1; cases h1
      · rw [hb] at h1; cases h1
      · rw [hb] at h1; cases h1
  obtain ⟨i3, hi3, hb3⟩ := hstart
  have hb : ∀ i, i3 ≤ i → ((run i).fed j).pc ≠ .before := by
    intro i hi
    induction hi with
    | refl => exact hb3
    | @step i hi ih =>
      have hi : i3 ≤ i := hi
      rcases F.next i with h | h
      · rw [h]; exact ih
      · rcases node_step hw h j with ⟨_, h3, _⟩ | ⟨_, h3⟩
        · rw [h3]; exact ih
        · rcases h3 with ⟨_, h2, _⟩ | ⟨K, h1, _, h2, _⟩ | ⟨K, h1, h2, _⟩ | ⟨h1, h2, h3⟩
          · rw [h2]; simp
          · rw [h2]; split <;> simp
          · rw [h2]; simp
          · have h4 := (stay i (by omega)).1
            have h5 := (stay (i + 1) (by omega)).1
            omega
  have hpc : ∀ i, i3 ≤ i → ((run i).fed j).pc = .level L ∨ ((run i).fed j).pc = .passed L := by
    intro i hi
    have h1 := hb i hi
    have h2 := nd i
    have h3 := (stay i (by omega)).2
    cases hp : ((run i).fed j).pc with
    | before => exact absurd hp h1
    | done => exact absurd hp h2
    | level K =>
      rw [hp] at h3
      have h3 : K = L := h3
      rw [h3]; exact .inl rfl
    | passed K =>
      rw [hp] at h3
      have h3 : K = L := h3
      rw [h3]; exact .inr rfl
  by_cases hlast : L = M.P.levels j
  · -- the end of the tag
    obtain ⟨i, hi, hG⟩ := F.eventually (.work j) i3 (fun i => m < ((run i).fed j).n)
      (fun i hi _ => by
        rcases hpc i hi with hp | hp
        · exact ⟨_, .finish hj (hlast ▸ hp)⟩
        · have := ((inv i).fed j hj).rangeP L hp
          omega)
      (fun i hi _ hdo => by
        have hn := (stay i (by omega)).1
        rcases (does_work hdo).2 with ⟨h1, _⟩ | ⟨K, h1, h2, _⟩ | ⟨K, h1, _⟩ | ⟨_, _, h3⟩
        · exact absurd h1 (hb i hi)
        · have h3 := (stay i (by omega)).2
          rw [h1] at h3
          have h3 : K = L := h3
          omega
        · have := ((inv i).fed j hj).rangeP K h1
          have h3 := (stay i (by omega)).2
          rw [h1] at h3
          have h3 : K = L := h3
          omega
        · omega)
    exact hno i (.inl hG)
  · have hL : L < M.P.levels j := by omega
    -- the inputs for the level
    have hin : ∀ k < M.P.nc, ∃ a, ∀ i, a ≤ i → (M.P.conn k).dst = j → cyc M k = true → ((M.P.cfg j).port (M.P.conn k).port).level ≤ L →
        M.tau m ≤ ((run i).fed j).lv.known (M.P.conn k).port := by
      intro k hk
      by_cases hc : ((M.P.conn k).dst = j ∧ cyc M k = true) ∧ ((M.P.cfg j).port (M.P.conn k).port).level ≤ L
      · obtain ⟨⟨hd, hc⟩, hlev⟩ := hc
        have hdel : M.delayed k = false := by
          unfold cyc at hc
          simp only [Bool.and_eq_true, Bool.not_eq_true'] at hc
          exact hc.1.1
        have he := ho.edge k hk hdel
        unfold exit entry at he
        rw [if_pos hc, if_pos hc, hd] at he
        have hle := rank_mono ho j hlev
        obtain ⟨hsl, hal⟩ := hw.outLevel k hk
        obtain ⟨a, ha⟩ := ih (M.P.conn k).src (M.P.conn k).absLevel (by omega) (hw.src k hk) (by omega)
        have hat : ∀ i, a ≤ i → At M (run i) (M.P.conn k).src m ((M.P.conn k).absLevel + 1) := fun i hi => F.at_mono hw hi ha
        have htells := (hw.listed k hk hc).2
        obtain ⟨b, hb, hb'⟩ := F.drain hk (Q := fun e => e.1 ≠ M.tau m) (i0 := a) (by
          intro i hi K hK e he
          rcases hat i hi with h | ⟨h1, h2⟩
          · rw [send_tag he, cyc_same hw hk hc]
            intro e
            have := inj_of_mono hw.tags e
            omega
          · rw [hK] at h2
            have h2 : (M.P.conn k).absLevel + 1 ≤ K := h2
            unfold sendNow at he
            rw [if_neg (by omega), if_neg (by omega)] at he
            cases he)
        refine ⟨b, fun i hi _ _ _ => ?_⟩
        have hs : Sent M (run i) k m := by
          rcases hat i (by omega) with h | ⟨h1, h2⟩
          · exact Or.inl ⟨h, Or.inr htells⟩
          · right
            refine ⟨h1.symm, ?_⟩
            unfold srcPos
            cases ho : sends M (run i) k m with
            | none => exact Or.inr ⟨by omega, htells, rfl⟩
            | some v => exact Or.inl ⟨by omega, rfl⟩
        rcases ((inv i).chan k hk).status _ hs with ⟨h4, _⟩ | ⟨h4, _⟩
        · have := hb' i hi _ h4
          rw [cyc_same hw hk hc] at this
          exact absurd rfl this
        · rw [cyc_same hw hk hc, hd] at h4
          exact h4
      · exact ⟨0, fun i _ h1 h2 h3 => absurd ⟨⟨h1, h2⟩, h3⟩ hc⟩
    obtain ⟨i4, h4⟩ := eventually_all M.P.nc hin
    have hml : ∀ i, i3 + i4 ≤ i → L < ((run i).fed j).lv.mlaa := by
      intro i hi
      have hfew := hw.few j
      have h2 := ((inv i).fed j hj).level (hb i (by omega)) L (by unfold Level.INT_MAX; omega)
      refine h2.2 fun p hp hcy hlev => ?_
      obtain ⟨k, hk, hdst, hpp, hic⟩ := hw.connected j hj p hp hcy
      have h3 := h4 i (by omega) k hk hdst hic (by rw [hpp]; exact hlev)
      rw [hpp] at h3
      show M.tau ((run i).fed j).n ≤ _
      rw [(stay i (by omega)).1]
      exact h3
    -- the level may be executed
    obtain ⟨i5, hi5, hp5⟩ := F.eventually (.work j) (i3 + i4) (fun i => ((run i).fed j).pc = .passed L)
      (fun i hi hG => by
        rcases hpc i (by omega) with hp | hp
        · refine ⟨_, .stall hj hp hL ?_⟩
          cases ha : ((run i).fed j).lv.asleep L with
          | false => rfl
          | true =>
            have := (((inv i).fed j hj).asleep L ha).2.1
            have h6 := hml i hi
            unfold view at this
            dsimp only at this
            omega
        · exact absurd hp hG)
      (fun i hi hG hdo => by
        have hp : ((run i).fed j).pc = .level L := (hpc i (by omega)).resolve_right hG
        rcases (does_work hdo).2 with ⟨h1, _⟩ | ⟨K, h1, h2, h3, _⟩ | ⟨K, h1, _⟩ | ⟨h1, _⟩
        · rw [hp] at h1; cases h1
        · rw [hp] at h1; cases h1
          have := hml i hi
          rw [if_neg (by omega)] at h3
          exact h3
        · rw [hp] at h1; cases h1
        · rw [hp] at h1; cases h1
          omega)
    have hp : ∀ i, i5 ≤ i → ((run i).fed j).pc = .passed L := by
      intro i hi
      induction hi with
      | refl => exact hp5
      | @step i hi ih =>
        have hi : i5 ≤ i := hi
        rcases F.next i with h | h
        · rw [h]; exact ih
        · rcases node_step hw h j with ⟨_, h3, _⟩ | ⟨_, h3⟩
          · rw [h3]; exact ih
          · rcases h3 with ⟨h1, _⟩ | ⟨K, h1, _⟩ | ⟨K, h1, h2, h3⟩ | ⟨h1, _⟩
            · rw [ih] at h1; cases h1
            · rw [ih] at h1; cases h1
            · rw [ih] at h1; cases h1
              have := (stay (i + 1) (by omega)).2
              rw [h2] at this
              have this : L + 1 = L := this
              omega
            · rw [ih] at h1; cases h1
    -- it is executed
    obtain ⟨i, hi, hdo⟩ := F.fair (.work j) i5 fun i hi => ⟨_, .exec hj (hp i hi)⟩
    have h6 := hp i hi
    have h7 := hp (i + 1) (by omega)
    rcases (does_work hdo).2 with ⟨h1, _⟩ | ⟨K, h1, _⟩ | ⟨K, h1, h2, _⟩ | ⟨h1, _⟩
    · rw [h6] at h1; cases h1
    · rw [h6] at h1; cases h1
    · rw [h7] at h2; cases h2
    · rw [h6] at h1; cases h1

theorem Fair.gets_to (F : Fair M x run) (hw : WF M) (ho : Ordered M rank) (m : Nat) : ∀ j < M.P.n, ∃ i0, m ≤ ((run i0).fed j).n := by
  induction m with
  | zero => exact fun j _ => ⟨0, Nat.zero_le _⟩
  | succ m ih =>
    intro j hj
    obtain ⟨i0, h⟩ := F.passes hw ho ih _ j (M.P.levels j) rfl hj (Nat.le_refl _)
    refine ⟨i0, ?_⟩
    have h2 := pos_le M.P ((reach_inv hw (F.reached i0)).fed j hj)
    unfold view at h2
    dsimp only at h2
    unfold At at h
    omega

end ReactorC.Cycle.Run
