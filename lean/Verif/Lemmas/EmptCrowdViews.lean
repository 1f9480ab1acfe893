import Verif.Lemmas.CrowdViews
import Verif.Lemmas.EmptInside
import Verif.Spec.EmptTurns
import Verif.Props.EmptInside

/-!
# What a further thread sees of the trie inside an `EMPT` that several threads write to
-/

namespace Pymt

section
variable {E : Env} {sec : Bool} {calls : Nat → List ECall} {log : List Bytes} {W : EWorld} {cs : Nat → List (Nat × Call)}
  {s : List Nat} {w : World}

/-- A trie that no longer looks new never does again: one step. -/
theorem EShadow.stays (hf : ∀ c, Inner E calls c → Fits E sec c.key) (hL : LogOk E log) (hall : W.Covered E log)
    (h : EShadow E sec calls log W cs s w) (j : Nat) (hne : W.obj.trie.root ≠ some (emptyHash E)) :
    (W.step E j).obj.trie.root ≠ some (emptyHash E) := by
  have hall' := hall.step j
  have ht := h.tracked j
  have hoth : ∀ j', j' ≠ j → (W.step E j).threads j' = W.threads j' := fun j' hj => by
    unfold EWorld.step
    simp only
    split
    · split
      · rfl
      · exact EWorld.setThread_other _ _ hj
    · exact EWorld.setThread_other _ _ hj
    · exact EWorld.setThread_other _ _ hj
  have hwsec : w.secure = fun _ => sec := by rw [← h.shadow.run]; exact worldAt_secure _ _
  unfold Tracked at ht
  cases hcur : (W.threads j).cur with
  | none =>
    cases hrest : (W.threads j).rest with
    | nil =>
      have : W.step E j = W := by unfold EWorld.step; simp only [hcur, hrest]
      rw [this]; exact hne
    | cons c rest =>
      have hst : W.step E j = W.setThread j { W.threads j with cur := some (c.prog E W.obj.trie.secure), rest := rest } := by
        unfold EWorld.step; simp only [hcur, hrest]
      rw [hst]; exact hne
  | some p =>
    rw [hcur] at ht
    obtain ⟨c, hd, ht⟩ := ht
    have acc : ∀ (p' : EProg EAns) (o : EMPT), (∀ r, p ≠ .done r) → EWorld.access p W.obj = (o, p') →
        ((W.step E j).threads j) = { W.threads j with cur := some p' } ∧ (W.step E j).obj = o := by
      intro p' o hnd ha
      rw [EWorld.step_access E hnd hcur, ha]
      exact ⟨EWorld.setThread_same _ _ _, rfl⟩
    generalize hwc : (w.threads j).cur = wc at ht
    cases ht with
    | out _ hform hset =>
      rcases hform.not_trie hset with ⟨r, rfl, hr⟩ | ⟨k, n, rfl, hn, he⟩ | ⟨k, v, n, rfl, hn⟩ | ⟨k, n, rfl, hn, he⟩
      · have hst : W.step E j = W.setThread j { W.threads j with cur := none, outs := (W.threads j).outs ++ [r] } := by
          unfold EWorld.step; simp only [hcur]
        rw [hst]; exact hne
      · rw [(acc _ _ (fun r e => (nomatch e)) rfl).2]
        cases hv : dget W.obj.data k <;> simp only [EWorld.access, hv] <;> exact hne
      · rw [(acc _ _ (fun r e => (nomatch e)) rfl).2]; exact hne
      · rw [(acc _ _ (fun r e => (nomatch e)) rfl).2]
        cases hv : dget W.obj.data k <;> simp only [EWorld.access, hv] <;> exact hne
    | inside c' P g hP hc' hg he =>
      obtain ⟨h1, h2⟩ := acc _ _ (trie_not_done hP g) (eaccess_trie hP g W.obj)
      obtain ⟨g1, g2, g3⟩ := World.step_access E hP hwc
      have hobj : w.obj 0 = W.obj.trie := by
        unfold World.obj; rw [h.store, h.root, hwsec, ← h.secure]
      have gsec : (w.step E j).secure = fun _ => sec := by rw [World.step_secure, hwsec]
      have goth : ∀ j', j' ≠ j → (w.step E j).threads j' = w.threads j' := fun j' hj => w.step_other E hj
      rw [hobj] at g1 g2 g3
      have asec : (P.access W.obj.trie).1.secure = sec := by
        rw [← h.secure]
        cases P with
        | load k n => simp only [Prog.access]; cases dget W.obj.trie.store.kv k <;> rfl
        | done | save | root | setRoot => rfl
      have hother : ∀ j', j' ≠ j → Tracked E sec calls cs (W.step E j) (w.step E j) j' :=
        fun j' hj => (h.tracked j').congr rfl (hoth j' hj) (goth j' hj)
      have hstore : (w.step E j).store = (W.step E j).obj.trie.store := by rw [g1, h2]
      have hroot : (w.step E j).roots 0 = (W.step E j).obj.trie.root := by rw [g2, h2]
      have hsecure : (W.step E j).obj.trie.secure = sec := by rw [h2]; exact asec
      have hnew := h.shadow.move (j := j) (by rw [hwc]; exact fun e => (nomatch e))
        (bounded_of hall' hstore hroot (by rw [gsec, hsecure]) (by
          intro j' i P' hP'
          by_cases hj : j' = j
          · subst hj
            rw [g3] at hP'
            injection hP' with hP'
            injection hP' with e1 e2
            subst e1 e2
            exact ⟨rfl, .inr ⟨g, by rw [h1]⟩⟩
          · exact (hother j' hj).inside hP'))
      have hused := (hnew.on hf hL).used (i := 0) (q := s.length) (q' := s.length + 1) (Nat.le_succ _) (by simp)
      rw [worldAt_snoc, worldAt_snoc, if_pos (Nat.le_refl _), if_neg (by omega), h.shadow.run, h.root, hroot] at hused
      exact hused hne

end

section
variable {E : Env} {secure : Bool} {calls : Nat → List ECall} {log : List Bytes}

theorem EWorld.step_taller (E : Env) (j : Nat) (w : EWorld) : Taller w.obj.trie.store (w.step E j).obj.trie.store := by
  unfold EWorld.step
  simp only
  split
  · split <;> exact Taller.refl _
  · exact Taller.refl _
  · rename_i p _ _
    cases p with
    | done r => exact Taller.refl _
    | load k n => simp only [EWorld.access]; split <;> exact Taller.refl _
    | save k v n => exact Taller.set _ _ _
    | root n => exact Taller.refl _
    | setRoot r n => exact Taller.refl _
    | data k n => simp only [EWorld.access]; split <;> exact Taller.refl _
    | setData k v n => exact Taller.refl _
    | delData k n => simp only [EWorld.access]; split <;> exact Taller.refl _

theorem EWorld.run_taller (E : Env) (l : List Nat) (w : EWorld) : Taller w.obj.trie.store (w.run E l).obj.trie.store := by
  induction l generalizing w with
  | nil => exact Taller.refl _
  | cons j l ih => exact (EWorld.step_taller E j w).trans (ih _)

theorem eworldAt_split {sched : List Nat} {q q' : Nat} (h : q ≤ q') :
    ∃ l, eworldAt E secure calls sched q' = (eworldAt E secure calls sched q).run E l := by
  refine ⟨(sched.take q').drop q, ?_⟩
  unfold eworldAt EWorld.run
  rw [← List.foldl_append]
  congr 1
  rw [show sched.take q = (sched.take q').take q by rw [List.take_take, Nat.min_eq_left h], List.take_append_drop]

/-- The shadow of a moment. -/
theorem ECrowd.shadow (h : ECrowd E secure calls log) (sched : List Nat) :
    ∃ cs s w, EShadow E secure calls log ((EWorld.new E secure calls).run E sched) cs s w ∧
      CrowdOn E (fun _ => secure) cs log s ∧
      (worldAt E (fun _ => secure) cs s s.length).obj 0 = ((EWorld.new E secure calls).run E sched).obj.trie := by
  obtain ⟨cs, s, v, hsh⟩ := EShadow.all h.inner h.log h.all sched
  refine ⟨cs, s, v, hsh, hsh.shadow.on h.inner h.log, ?_⟩
  have hsec : v.secure = fun _ => secure := by rw [← hsh.shadow.run]; exact worldAt_secure _ _
  rw [hsh.shadow.run]
  unfold World.obj; rw [hsh.store, hsh.root, hsec]
  generalize hz : ((EWorld.new E secure calls).run E sched).obj.trie = z
  have := hsh.secure
  rw [hz] at this
  rw [← this]

theorem ECrowd.stOk (h : ECrowd E secure calls log) (sched : List Nat) :
    StOk E log secure ((EWorld.new E secure calls).run E sched).obj.trie := by
  obtain ⟨cs, s, w, _, h2, h3⟩ := h.shadow sched
  rw [← h3]
  exact h2.stOk 0 s.length

theorem EWorld.Covered.run {W : EWorld} (h : W.Covered E log) (l : List Nat) : (W.run E l).Covered E log := by
  intro s
  rw [← EWorld.run_append]
  exact h _

theorem ECrowd.stays (h : ECrowd E secure calls log) (sched l : List Nat)
    (hne : ((EWorld.new E secure calls).run E sched).obj.trie.root ≠ some (emptyHash E)) :
    (((EWorld.new E secure calls).run E sched).run E l).obj.trie.root ≠ some (emptyHash E) := by
  induction l generalizing sched with
  | nil => exact hne
  | cons j l ih =>
    obtain ⟨cs, s, w, h1, _, _⟩ := h.shadow sched
    have hall : (EWorld.new E secure calls).Covered E log := h.all
    have := h1.stays h.inner h.log (hall.run sched) j hne
    have e : ((EWorld.new E secure calls).run E sched).run E (j :: l) =
        ((EWorld.new E secure calls).run E (sched ++ [j])).run E l := by
      rw [EWorld.run_append]; rfl
    rw [e]
    refine ih _ ?_
    rw [EWorld.run_append]
    exact this

/-- The trie inside, as a further thread sees it. -/
theorem ECrowd.views (h : ECrowd E secure calls log) (sched : List Nat) {mom : Nat → Nat} {a b : Nat}
    (hm : Moments mom a b) :
    Views E log secure (fun q => (eworldAt E secure calls sched q).obj.trie) mom
      (fun n => (eworldAt E secure calls sched (mom n)).obj.trie) := by
  refine ⟨fun q => h.stOk _, hm.mono, fun n => rfl, fun n => Sub.refl _, fun n => ?_, fun n => (h.stOk _).gs, h.log,
    fun q q' hq hr => ?_⟩
  · refine Sub.ofKeys (h.stOk _).gs (h.stOk _).gs h.log ?_
    obtain ⟨l, e⟩ := eworldAt_split (E := E) (secure := secure) (calls := calls) (sched := sched) (hm.mono n)
    show KeysGrow (eworldAt E secure calls sched (mom n)).obj.trie.store.kv
      (eworldAt E secure calls sched (mom (n + 1))).obj.trie.store.kv
    rw [e]
    exact (EWorld.run_taller E l _).1
  · obtain ⟨l, e⟩ := eworldAt_split (E := E) (secure := secure) (calls := calls) (sched := sched) hq
    show (eworldAt E secure calls sched q').obj.trie.root ≠ _
    rw [e]
    exact h.stays _ l hr

theorem ECrowd.shelves (h : ECrowd E secure calls log) (sched : List Nat) {mom : Nat → Nat} {a b : Nat}
    (hm : Moments mom a b) : Shelves (fun n => (eworldAt E secure calls sched (mom n)).obj.trie) := by
  refine ⟨fun n => ?_, fun n => ?_, (h.views sched hm).mono⟩
  · exact (EWorld.run_taller E (sched.take (mom n)) (EWorld.new E secure calls)).2 (by simp [EWorld.new, Store.empty])
  · obtain ⟨l, e⟩ := eworldAt_split (E := E) (secure := secure) (calls := calls) (sched := sched) (hm.mono n)
    show KeysGrow (eworldAt E secure calls sched (mom n)).obj.trie.store.kv
      (eworldAt E secure calls sched (mom (n + 1))).obj.trie.store.kv
    rw [e]
    exact (EWorld.run_taller E l _).1

end

end Pymt
