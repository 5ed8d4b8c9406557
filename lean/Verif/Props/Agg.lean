import Verif.Model.Agg
/-!
# C46: flush aggregation
-/
namespace Candy.Props

/-- In this log, a sync of the shard file that began after the data of the call was written to it has completed. -/
def SyncedAfter (log : List AEv) (x : CallId) : Prop :=
  ∃ l1 l2 l3 l4 j, log = l1 ++ [.wrote x false] ++ l2 ++ [.began j] ++ l3 ++ [.ended j true] ++ l4 ∧ AEv.began j ∉ l3

/-- A sync that began after the data was written is being made by thread `h`. -/
def BeganAfter (log : List AEv) (x : CallId) (h : Nat) : Prop :=
  ∃ l1 l2 l3, log = l1 ++ [.wrote x false] ++ l2 ++ [.began h] ++ l3 ∧ AEv.began h ∉ l3

theorem SyncedAfter.append {log : List AEv} {x : CallId} (h : SyncedAfter log x) (l : List AEv) : SyncedAfter (log ++ l) x := by
  obtain ⟨l1, l2, l3, l4, j, rfl, hn⟩ := h
  exact ⟨l1, l2, l3, l4 ++ l, j, by simp, hn⟩

theorem BeganAfter.append {log : List AEv} {x : CallId} {h : Nat} (hb : BeganAfter log x h) {e : AEv} (he : e ≠ .began h) : BeganAfter (log ++ [e]) x h := by
  obtain ⟨l1, l2, l3, rfl, hn⟩ := hb
  refine ⟨l1, l2, l3 ++ [e], by simp, ?_⟩
  simp only [List.mem_append, List.mem_singleton, not_or]
  exact ⟨hn, Ne.symm he⟩

theorem BeganAfter.ended {log : List AEv} {x : CallId} {h : Nat} (hb : BeganAfter log x h) : SyncedAfter (log ++ [.ended h true]) x := by
  obtain ⟨l1, l2, l3, rfl, hn⟩ := hb
  exact ⟨l1, l2, l3, [], h, by simp, hn⟩

theorem BeganAfter.begin {log : List AEv} {x : CallId} (hw : AEv.wrote x false ∈ log) (h : Nat) : BeganAfter (log ++ [.began h]) x h := by
  obtain ⟨l1, l2, rfl⟩ := List.append_of_mem hw
  exact ⟨l1, l2, [], by simp, by simp⟩

/-- Positions in which a thread holds the mutex. -/
def _root_.Candy.APc.holding : APc → Bool
  | .holds => true
  | .sleeping => true
  | .woken => true
  | .syncing => true
  | .leaving _ => true
  | _ => false

/-- Positions after the data has been written. -/
def _root_.Candy.APc.written : APc → Bool
  | .idle => false
  | .inside => false
  | _ => true

/-- What is known of the call `x` whose data is in the file. -/
structure AInv (s : Agg) : Prop where
  mutex : ∀ i, (s.pc i).holding = true ↔ s.mutex = some i
  delay : s.delay = true → ∃ h, s.mutex = some h ∧ s.pc h = .sleeping
  written : ∀ i, (s.pc i).written = true → .wrote (i, s.call i) false ∈ s.log ∨ .wrote (i, s.call i) true ∈ s.log
  syncing : ∀ i, s.pc i = .syncing → .wrote (i, s.call i) true ∈ s.log ∨ BeganAfter s.log (i, s.call i) i
  queued : ∀ i, s.pc i = .queued true → .wrote (i, s.call i) true ∈ s.log ∨ SyncedAfter s.log (i, s.call i) ∨
    ∃ h, s.mutex = some h ∧ (s.pc h = .sleeping ∨ s.pc h = .woken ∨ (s.pc h = .syncing ∧ BeganAfter s.log (i, s.call i) h))
  done : ∀ i, s.pc i = .leaving true ∨ s.pc i = .out true → .wrote (i, s.call i) true ∈ s.log ∨ SyncedAfter s.log (i, s.call i)
  log : ∀ l x l', s.log = l ++ .returned x true :: l' → .wrote x true ∈ l ∨ SyncedAfter l x

theorem AInv.init : AInv Agg.init := by
  refine ⟨?_, ?_, ?_, ?_, ?_, ?_, ?_⟩ <;> simp [Agg.init, APc.holding, APc.written]

theorem setPc_same (f : Nat → APc) (i : Nat) (p : APc) : setPc f i p i = p := by simp [setPc]
theorem setPc_other (f : Nat → APc) {i j : Nat} (p : APc) (h : j ≠ i) : setPc f i p j = f j := by simp [setPc, h]

theorem log_append {log : List AEv} {e : AEv} (he : ∀ x, e ≠ .returned x true)
    (h : ∀ l x l', log = l ++ .returned x true :: l' → .wrote x true ∈ l ∨ SyncedAfter l x) :
    ∀ l x l', log ++ [e] = l ++ .returned x true :: l' → .wrote x true ∈ l ∨ SyncedAfter l x := by
  intro l x l' e1
  rcases List.eq_nil_or_concat l' with rfl | ⟨l'', e', rfl⟩
  · have := List.append_inj_right' e1 rfl
    simp only [List.cons.injEq, and_true] at this
    exact absurd this (he x)
  · have : log ++ [e] = (l ++ .returned x true :: l'') ++ [e'] := by rw [e1]; simp
    exact h l x l'' (List.append_inj_left' this rfl)

/-- A step that moves one thread. -/
theorem AInv.move {s : Agg} (h : AInv s) (i : Nat) (p : APc) (mx : Option Nat) (dl cp : Bool) (rd : Nat) (wr : AWriter) (ev : List AEv)
    (c1 : ∀ j, j ≠ i → (mx = some j ↔ s.mutex = some j)) (c1' : p.holding = true ↔ mx = some i)
    (c2 : dl = true → (∃ h, h ≠ i ∧ s.delay = true) ∧ (s.pc i ≠ .sleeping) ∨ mx = some i ∧ p = .sleeping)
    (c3 : p.written = true → .wrote (i, s.call i) false ∈ s.log ++ ev ∨ .wrote (i, s.call i) true ∈ s.log ++ ev)
    (c4 : p = .syncing → .wrote (i, s.call i) true ∈ s.log ++ ev ∨ BeganAfter (s.log ++ ev) (i, s.call i) i)
    (c5 : p = .queued true → ∃ h, h ≠ i ∧ s.mutex = some h ∧ s.pc h = .sleeping)
    (c6 : p = .leaving true ∨ p = .out true → .wrote (i, s.call i) true ∈ s.log ++ ev ∨ SyncedAfter (s.log ++ ev) (i, s.call i))
    (c7 : ∀ x, .wrote x false ∈ s.log → s.pc i = .sleeping ∨ s.pc i = .woken ∨ (s.pc i = .syncing ∧ BeganAfter s.log x i) →
      SyncedAfter (s.log ++ ev) x ∨ (mx = some i ∧ (p = .sleeping ∨ p = .woken ∨ (p = .syncing ∧ BeganAfter (s.log ++ ev) x i))))
    (c8 : ev = [] ∨ ∃ e, ev = [e] ∧ (∀ x, e ≠ .returned x true) ∧ ∀ j, j ≠ i → e ≠ .began j) :
    AInv ⟨setPc s.pc i p, s.call, mx, dl, cp, rd, wr, s.log ++ ev⟩ := by
  obtain ⟨hmut, hdel, hwr, hsy, hqu, hdn, hlg⟩ := h
  have mono : ∀ {e : AEv}, e ∈ s.log → e ∈ s.log ++ ev := fun h => List.mem_append_left _ h
  have bmono : ∀ {x : CallId} {j : Nat}, j ≠ i → BeganAfter s.log x j → BeganAfter (s.log ++ ev) x j := by
    intro x j hj hb
    rcases c8 with rfl | ⟨e, rfl, _, h2⟩
    · simpa using hb
    · exact hb.append (h2 j hj)
  refine ⟨fun j => ?_, fun hd => ?_, fun j hj => ?_, fun j hj => ?_, fun j hj => ?_, fun j hj => ?_, ?_⟩
  · by_cases e : j = i
    · subst e; simp only [setPc_same]; exact c1'
    · simp only [setPc_other _ _ e]; rw [c1 j e]; exact hmut j
  · rcases c2 hd with ⟨⟨_, _, h1⟩, h2⟩ | ⟨h1, h2⟩
    · obtain ⟨h, h3, h4⟩ := hdel h1
      have : h ≠ i := fun e => h2 (e ▸ h4)
      exact ⟨h, (c1 h this).2 h3, by simp only [setPc_other _ _ this]; exact h4⟩
    · exact ⟨i, h1, by simp only [setPc_same]; exact h2⟩
  · by_cases e : j = i
    · subst e; simp only [setPc_same] at hj; exact c3 hj
    · simp only [setPc_other _ _ e] at hj; exact (hwr j hj).imp mono mono
  · by_cases e : j = i
    · subst e; simp only [setPc_same] at hj; exact c4 hj
    · simp only [setPc_other _ _ e] at hj; exact (hsy j hj).imp mono (bmono e)
  · by_cases e : j = i
    · subst e; simp only [setPc_same] at hj
      obtain ⟨h, h1, h2, h3⟩ := c5 hj
      exact .inr (.inr ⟨h, (c1 h h1).2 h2, .inl (by simp only [setPc_other _ _ h1]; exact h3)⟩)
    · simp only [setPc_other _ _ e] at hj
      rcases hqu j hj with h1 | h1 | ⟨h, h1, h2⟩
      · exact .inl (mono h1)
      · exact .inr (.inl (h1.append _))
      · by_cases eh : h = i
        · subst eh
          rcases hwr j (by rw [hj]; rfl) with w | w
          · rcases c7 _ w h2 with h3 | ⟨h3, h4⟩
            · exact .inr (.inl h3)
            · exact .inr (.inr ⟨h, h3, by simp only [setPc_same]; exact h4⟩)
          · exact .inl (mono w)
        · refine .inr (.inr ⟨h, (c1 h eh).2 h1, ?_⟩)
          simp only [setPc_other _ _ eh]
          exact h2.imp id (fun h2 => h2.imp id (fun h2 => ⟨h2.1, bmono eh h2.2⟩))
  · by_cases e : j = i
    · subst e; simp only [setPc_same] at hj; exact c6 hj
    · simp only [setPc_other _ _ e] at hj; exact (hdn j hj).imp mono (fun h => h.append _)
  · rcases c8 with rfl | ⟨e, rfl, h1, _⟩
    · simpa using hlg
    · exact log_append h1 hlg

theorem AInv.ret {s : Agg} (h : AInv s) (i : Nat) (ok : Bool) (hp : s.pc i = .out ok) (cp : Bool) (rd : Nat) (wr : AWriter) :
    AInv ⟨setPc s.pc i .idle, fun j => if j = i then s.call j + 1 else s.call j, s.mutex, s.delay, cp, rd, wr, s.log ++ [.returned (i, s.call i) ok]⟩ := by
  obtain ⟨hmut, hdel, hwr, hsy, hqu, hdn, hlg⟩ := h
  have hni : s.mutex ≠ some i := fun e => by have := (hmut i).2 e; rw [hp] at this; cases this
  have mono : ∀ {e : AEv}, e ∈ s.log → e ∈ s.log ++ [.returned (i, s.call i) ok] := fun h => List.mem_append_left _ h
  refine ⟨fun j => ?_, fun hd => ?_, fun j hj => ?_, fun j hj => ?_, fun j hj => ?_, fun j hj => ?_, ?_⟩
  · by_cases e : j = i
    · subst e; simp only [setPc_same]; exact ⟨fun h => (by cases h), fun h => absurd h hni⟩
    · simp only [setPc_other _ _ e]; exact hmut j
  · obtain ⟨h, h3, h4⟩ := hdel hd
    have : h ≠ i := fun e => hni (e ▸ h3)
    exact ⟨h, h3, by simp only [setPc_other _ _ this]; exact h4⟩
  · by_cases e : j = i
    · subst e; simp only [setPc_same] at hj; cases hj
    · simp only [setPc_other _ _ e] at hj; simp only [if_neg e]; exact (hwr j hj).imp mono mono
  · by_cases e : j = i
    · subst e; simp only [setPc_same] at hj; cases hj
    · simp only [setPc_other _ _ e] at hj; simp only [if_neg e]; exact (hsy j hj).imp mono (fun h => h.append (by simp))
  · by_cases e : j = i
    · subst e; simp only [setPc_same] at hj; cases hj
    · simp only [setPc_other _ _ e] at hj; simp only [if_neg e]
      rcases hqu j hj with h1 | h1 | ⟨h, h1, h2⟩
      · exact .inl (mono h1)
      · exact .inr (.inl (h1.append _))
      · have eh : h ≠ i := fun e => hni (e ▸ h1)
        refine .inr (.inr ⟨h, h1, ?_⟩)
        simp only [setPc_other _ _ eh]
        exact h2.imp id (fun h2 => h2.imp id (fun h2 => ⟨h2.1, h2.2.append (by simp)⟩))
  · by_cases e : j = i
    · subst e; simp only [setPc_same] at hj; rcases hj with hj | hj <;> cases hj
    · simp only [setPc_other _ _ e] at hj; simp only [if_neg e]; exact (hdn j hj).imp mono (fun h => h.append _)
  · intro l x l' e1
    rcases List.eq_nil_or_concat l' with rfl | ⟨l'', e', rfl⟩
    · have e2 := List.append_inj_right' e1 rfl
      have e3 := List.append_inj_left' e1 rfl
      simp only [List.cons.injEq, and_true, AEv.returned.injEq] at e2
      obtain ⟨rfl, rfl⟩ := e2
      subst e3
      exact hdn i (.inr hp)
    · have : s.log ++ [.returned (i, s.call i) ok] = (l ++ .returned x true :: l'') ++ [e'] := e1.trans (by simp)
      exact hlg l x l'' (List.append_inj_left' this rfl)

theorem AInv.step {m : AMode} (hf : m.fails = false) (hst : m.stale = false) {s s' : Agg} (h : AInv s) (hs : Agg.Step m s s') : AInv s' := by
  have hI := h
  obtain ⟨hmut, hdel, hwr, hsy, hqu, hdn, hlg⟩ := h
  have free : ∀ {i : Nat}, (s.pc i).holding = false → s.mutex ≠ some i := fun hp e => by rw [(hmut _).2 e] at hp; cases hp
  have nil : s.log ++ [] = s.log := List.append_nil _
  cases hs with
  | enter i hp hw =>
    have hm := free (i := i) (by rw [hp]; rfl)
    have := hI.move i .inside s.mutex s.delay s.compacting (s.readers + 1) s.writer [] (fun _ _ => Iff.rfl) (by simp [APc.holding, hm])
      (fun hd => .inl ⟨⟨i + 1, by omega, hd⟩, by rw [hp]; simp⟩) (by simp [APc.written]) (by simp) (by simp) (by simp) (by rw [hp]; simp) (.inl rfl)
    rw [nil] at this; exact this
  | write i b hp hb =>
    have hm := free (i := i) (by rw [hp]; rfl)
    exact hI.move i .wrote s.mutex s.delay s.compacting s.readers s.writer [.wrote (i, s.call i) b] (fun _ _ => Iff.rfl) (by simp [APc.holding, hm])
      (fun hd => .inl ⟨⟨i + 1, by omega, hd⟩, by rw [hp]; simp⟩) (fun _ => by cases b <;> simp) (by simp) (by simp) (by simp) (by rw [hp]; simp)
      (.inr ⟨_, rfl, by simp, by simp⟩)
  | tryOk i hp hm =>
    have := hI.move i .holds (some i) s.delay s.compacting s.readers s.writer [] (fun j hj => by simp [hm, Ne.symm hj]) (by simp [APc.holding])
      (fun hd => .inl ⟨⟨i + 1, by omega, hd⟩, by rw [hp]; simp⟩) (fun _ => by rw [nil]; exact hwr i (by rw [hp]; rfl)) (by simp) (by simp) (by simp) (by rw [hp]; simp) (.inl rfl)
    rw [nil] at this; exact this
  | tryFail i hp hm =>
    have hm := free (i := i) (by rw [hp]; rfl)
    have := hI.move i .lost s.mutex s.delay s.compacting s.readers s.writer [] (fun _ _ => Iff.rfl) (by simp [APc.holding, hm])
      (fun hd => .inl ⟨⟨i + 1, by omega, hd⟩, by rw [hp]; simp⟩) (fun _ => by rw [nil]; exact hwr i (by rw [hp]; rfl)) (by simp) (by simp) (by simp) (by rw [hp]; simp) (.inl rfl)
    rw [nil] at this; exact this
  | load i hp =>
    have hm := free (i := i) (by rw [hp]; rfl)
    have := hI.move i (.queued s.delay) s.mutex s.delay s.compacting s.readers s.writer [] (fun _ _ => Iff.rfl) (by simp [APc.holding, hm])
      (fun hd => .inl ⟨⟨i + 1, by omega, hd⟩, by rw [hp]; simp⟩) (fun _ => by rw [nil]; exact hwr i (by rw [hp]; rfl)) (by simp)
      (fun e => by
        injection e with e
        obtain ⟨h, h1, h2⟩ := hdel e
        exact ⟨h, fun e' => hm (e' ▸ h1), h1, h2⟩) (by simp) (by rw [hp]; simp) (.inl rfl)
    rw [nil] at this; exact this
  | loadStale i hp hm => rw [hst] at hm; cases hm
  | lock i b hp hm =>
    have := hI.move i (if b then .leaving true else .holds) (some i) s.delay s.compacting s.readers s.writer [] (fun j hj => by simp [hm, Ne.symm hj])
      (by cases b <;> simp [APc.holding]) (fun hd => .inl ⟨⟨i + 1, by omega, hd⟩, by rw [hp]; simp⟩)
      (fun _ => by rw [nil]; exact hwr i (by rw [hp]; rfl)) (by cases b <;> simp) (by cases b <;> simp)
      (fun e => by
        rw [nil]
        cases b with
        | false => simp at e
        | true =>
          rcases hqu i hp with h1 | h1 | ⟨h, h1, _⟩
          · exact .inl h1
          · exact .inr h1
          · rw [hm] at h1; cases h1) (by rw [hp]; simp) (.inl rfl)
    rw [nil] at this; exact this
  | setFlag i hp =>
    have hm := (hmut i).1 (by rw [hp]; rfl)
    have := hI.move i .sleeping s.mutex true s.compacting s.readers s.writer [] (fun _ _ => Iff.rfl) (by simp [APc.holding, hm])
      (fun hd => .inr ⟨hm, rfl⟩) (fun _ => by rw [nil]; exact hwr i (by rw [hp]; rfl)) (by simp) (by simp) (by simp) (by rw [hp]; simp) (.inl rfl)
    rw [nil] at this; exact this
  | wake i hp =>
    have hm := (hmut i).1 (by rw [hp]; rfl)
    have := hI.move i .woken s.mutex false s.compacting s.readers s.writer [] (fun _ _ => Iff.rfl) (by simp [APc.holding, hm])
      (by simp) (fun _ => by rw [nil]; exact hwr i (by rw [hp]; rfl)) (by simp) (by simp) (by simp) (fun x _ _ => .inr ⟨hm, .inr (.inl rfl)⟩) (.inl rfl)
    rw [nil] at this; exact this
  | syncBegin i hp hw =>
    have hm := (hmut i).1 (by rw [hp]; rfl)
    have hd : s.delay = false := by
      cases hd : s.delay with
      | false => rfl
      | true =>
        obtain ⟨h, h1, h2⟩ := hdel hd
        rw [hm] at h1
        injection h1 with h1
        subst h1
        rw [hp] at h2; cases h2
    exact hI.move i .syncing s.mutex s.delay s.compacting (s.readers + 1) s.writer [.began i] (fun _ _ => Iff.rfl) (by simp [APc.holding, hm])
      (by simp [hd]) (fun _ => (hwr i (by rw [hp]; rfl)).imp (List.mem_append_left _) (List.mem_append_left _))
      (fun _ => (hwr i (by rw [hp]; rfl)).symm.imp (List.mem_append_left _) (fun h => BeganAfter.begin h i)) (by simp) (by simp)
      (fun x hx _ => .inr ⟨hm, .inr (.inr ⟨rfl, BeganAfter.begin hx i⟩)⟩) (.inr ⟨_, rfl, by simp, by intro j hj; simp [Ne.symm hj]⟩)
  | syncOk i hp =>
    have hm := (hmut i).1 (by rw [hp]; rfl)
    have hd : s.delay = false := by
      cases hd : s.delay with
      | false => rfl
      | true =>
        obtain ⟨h, h1, h2⟩ := hdel hd
        rw [hm] at h1
        injection h1 with h1
        subst h1
        rw [hp] at h2; cases h2
    exact hI.move i (.leaving true) s.mutex s.delay s.compacting (s.readers - 1) s.writer [.ended i true] (fun _ _ => Iff.rfl) (by simp [APc.holding, hm])
      (by simp [hd]) (fun _ => (hwr i (by rw [hp]; rfl)).imp (List.mem_append_left _) (List.mem_append_left _))
      (by simp) (by simp) (fun _ => (hsy i hp).imp (List.mem_append_left _) (fun h => h.ended))
      (fun x hx h => by
        rw [hp] at h
        rcases h with h | h | ⟨_, h⟩
        · cases h
        · cases h
        · exact .inl h.ended) (.inr ⟨_, rfl, by simp, by simp⟩)
  | syncFail i hp hm => rw [hf] at hm; cases hm
  | unlock i ok hp =>
    have hm := (hmut i).1 (by rw [hp]; rfl)
    have hd : s.delay = false := by
      cases hd : s.delay with
      | false => rfl
      | true =>
        obtain ⟨h, h1, h2⟩ := hdel hd
        rw [hm] at h1
        injection h1 with h1
        subst h1
        rw [hp] at h2; cases h2
    have := hI.move i (.out ok) none s.delay s.compacting s.readers s.writer [] (fun j hj => by rw [hm]; simp [Ne.symm hj]) (by simp [APc.holding])
      (by simp [hd]) (fun _ => by rw [nil]; exact hwr i (by rw [hp]; rfl)) (by simp) (by simp)
      (fun e => by
        rw [nil]
        simp only [reduceCtorEq, APc.out.injEq, false_or] at e
        subst e
        exact hdn i (.inl hp)) (by rw [hp]; simp) (.inl rfl)
    rw [nil] at this; exact this
  | ret i ok hp => exact hI.ret i ok hp _ _ _
  | askWrite _ _ => exact ⟨hmut, hdel, hwr, hsy, hqu, hdn, hlg⟩
  | getWrite _ _ => exact ⟨hmut, hdel, hwr, hsy, hqu, hdn, hlg⟩
  | endWrite _ => exact ⟨hmut, hdel, hwr, hsy, hqu, hdn, hlg⟩

/-- **C46** (partial: sequentially consistent memory, syncs do not fail, and the data went to the shard file rather than to the target of a running
compaction). In every execution of any number of threads, with compactions beginning and ending at any time: whenever a modifying call returns
successfully, a sync of the shard file that began after the call's data was written has completed. -/
theorem C46_synced_partial {compacts : Bool} {s : Agg} (h : Agg.Run ⟨false, compacts, false⟩ s) {l l' : List AEv} {x : CallId}
    (hl : s.log = l ++ .returned x true :: l') (hx : .wrote x true ∉ l) : SyncedAfter l x := by
  have : AInv s := by
    clear hl
    induction h with
    | init => exact AInv.init
    | step _ hs ih => exact ih.step rfl rfl hs
  exact (this.log l x l' hl).resolve_left hx

/-- Two calls share one sync: the second finds the first asleep and only waits. -/
theorem agg_shared : ∃ s, Agg.Run ⟨false, false, false⟩ s ∧ s.log =
    [.wrote (0, 0) false, .wrote (1, 0) false, .began 0, .ended 0 true, .returned (0, 0) true, .returned (1, 0) true] := by
  have r := @Agg.Run.init ⟨false, false, false⟩
  have r := r.step (.enter 0 rfl rfl)
  have r := r.step (.enter 1 rfl rfl)
  have r := r.step (.write 0 false rfl (by simp))
  have r := r.step (.tryOk 0 rfl rfl)
  have r := r.step (.setFlag 0 rfl)
  have r := r.step (.write 1 false rfl (by simp))
  have r := r.step (.tryFail 1 rfl (by simp))
  have r := r.step (.load 1 rfl)
  have r := r.step (.wake 0 rfl)
  have r := r.step (.syncBegin 0 rfl rfl)
  have r := r.step (.syncOk 0 rfl)
  have r := r.step (.unlock 0 true rfl)
  have r := r.step (.ret 0 true rfl)
  have r := r.step (.lock 1 true rfl rfl)
  have r := r.step (.unlock 1 true rfl)
  have r := r.step (.ret 1 true rfl)
  exact ⟨_, r, rfl⟩

/-- the hypotheses are met by the second of these calls -/
example : SyncedAfter [.wrote (0, 0) false, .wrote (1, 0) false, .began 0, .ended 0 true, .returned (0, 0) true] (1, 0) := by
  obtain ⟨s, hr, hl⟩ := agg_shared
  exact C46_synced_partial hr (l' := []) hl (by simp)

theorem not_synced {log : List AEv} {x : CallId} (h : ¬ (.wrote x false ∈ log ∧ ∃ j, .ended j true ∈ log)) : ¬ SyncedAfter log x := by
  rintro ⟨l1, l2, l3, l4, j, rfl, _⟩
  exact h ⟨by simp, j, by simp⟩

/-- **C46 is false of the code**, 1: during a compaction, a call whose row has been compacted writes to the target file; the sync it waits for
is of the other file. No sync of the file with its data has been made when it returns. -/
theorem C46_refuted_compaction : ∃ s, Agg.Run ⟨false, true, false⟩ s ∧ ∃ l x, s.log = l ++ [.returned x true] ∧ .wrote x true ∈ l ∧ ¬ SyncedAfter l x := by
  have r := @Agg.Run.init ⟨false, true, false⟩
  have r := r.step (.askWrite rfl rfl)
  have r := r.step (.getWrite rfl rfl)
  have r := r.step (.endWrite rfl)
  have r := r.step (.enter 0 rfl rfl)
  have r := r.step (.write 0 true rfl (fun _ => rfl))
  have r := r.step (.tryOk 0 rfl rfl)
  have r := r.step (.setFlag 0 rfl)
  have r := r.step (.wake 0 rfl)
  have r := r.step (.syncBegin 0 rfl rfl)
  have r := r.step (.syncOk 0 rfl)
  have r := r.step (.unlock 0 true rfl)
  have r := r.step (.ret 0 true rfl)
  exact ⟨_, r, [.wrote (0, 0) true, .began 0, .ended 0 true], (0, 0), rfl, by simp, not_synced (by simp)⟩

/-- **C46 is false of the code**, 2: if the sync fails, the call that made it reports the error, but a call that waited for it returns
successfully. -/
theorem C46_refuted_failed_sync : ∃ s, Agg.Run ⟨true, false, false⟩ s ∧ ∃ l x, s.log = l ++ [.returned x true] ∧ .wrote x false ∈ l ∧ ¬ SyncedAfter l x := by
  have r := @Agg.Run.init ⟨true, false, false⟩
  have r := r.step (.enter 0 rfl rfl)
  have r := r.step (.enter 1 rfl rfl)
  have r := r.step (.write 0 false rfl (by simp))
  have r := r.step (.tryOk 0 rfl rfl)
  have r := r.step (.setFlag 0 rfl)
  have r := r.step (.write 1 false rfl (by simp))
  have r := r.step (.tryFail 1 rfl (by simp))
  have r := r.step (.load 1 rfl)
  have r := r.step (.wake 0 rfl)
  have r := r.step (.syncBegin 0 rfl rfl)
  have r := r.step (.syncFail 0 rfl rfl)
  have r := r.step (.unlock 0 false rfl)
  have r := r.step (.ret 0 false rfl)
  have r := r.step (.lock 1 true rfl rfl)
  have r := r.step (.unlock 1 true rfl)
  have r := r.step (.ret 1 true rfl)
  exact ⟨_, r, [.wrote (0, 0) false, .wrote (1, 0) false, .began 0, .ended 0 false, .returned (0, 0) false], (1, 0), rfl, by simp, not_synced (by simp)⟩

/-- **C46 is false of the code**, 3: the load of `in_sync_agg_delay` is relaxed. If it returns the value from before the holder of the mutex woke
up, the call returns after a sync that began before its data was written. -/
theorem C46_refuted_stale_load : ∃ s, Agg.Run ⟨false, false, true⟩ s ∧ ∃ l x, s.log = l ++ [.returned x true] ∧ .wrote x false ∈ l ∧ ¬ SyncedAfter l x := by
  have r := @Agg.Run.init ⟨false, false, true⟩
  have r := r.step (.enter 0 rfl rfl)
  have r := r.step (.enter 1 rfl rfl)
  have r := r.step (.write 0 false rfl (by simp))
  have r := r.step (.tryOk 0 rfl rfl)
  have r := r.step (.setFlag 0 rfl)
  have r := r.step (.wake 0 rfl)
  have r := r.step (.syncBegin 0 rfl rfl)
  have r := r.step (.write 1 false rfl (by simp))
  have r := r.step (.tryFail 1 rfl (by simp))
  have r := r.step (.loadStale 1 rfl rfl)
  have r := r.step (.syncOk 0 rfl)
  have r := r.step (.unlock 0 true rfl)
  have r := r.step (.ret 0 true rfl)
  have r := r.step (.lock 1 true rfl rfl)
  have r := r.step (.unlock 1 true rfl)
  have r := r.step (.ret 1 true rfl)
  refine ⟨_, r, [.wrote (0, 0) false, .began 0, .wrote (1, 0) false, .ended 0 true, .returned (0, 0) true], (1, 0), rfl, by simp, ?_⟩
  rintro ⟨l1, l2, l3, l4, j, e, _⟩
  match l1, e with
  | [], e => simp at e
  | [_], e => simp at e
  | [_, _], e =>
    simp only [List.cons_append, List.nil_append, List.append_assoc, List.cons.injEq, AEv.wrote.injEq, true_and] at e
    have : AEv.began j ∈ [AEv.ended 0 true, .returned (0, 0) true] := by rw [e.2.2]; simp
    simp at this
  | [_, _, _], e => simp at e
  | [_, _, _, _], e => simp at e
  | _ :: _ :: _ :: _ :: _ :: l, e =>
    simp only [List.cons_append, List.append_assoc, List.cons.injEq] at e
    have := e.2.2.2.2.2
    simp at this

/-- **C46**, progress (partial: no compaction begins or ends): whenever a call is in progress, some call in progress can make a step. -/
theorem C46_progress_partial {s : Agg} (h : Agg.Run ⟨false, false, false⟩ s) (i : Nat) (hi : s.pc i ≠ .idle) :
    ∃ s' j, Agg.Step ⟨false, false, false⟩ s s' ∧ s.pc j ≠ .idle ∧ s'.pc j ≠ s.pc j := by
  have hI : AInv s ∧ s.writer = .none := by
    clear hi
    induction h with
    | init => exact ⟨AInv.init, rfl⟩
    | step _ hs ih =>
      refine ⟨ih.1.step rfl rfl hs, ?_⟩
      cases hs with
      | askWrite _ hm => cases hm
      | getWrite hw _ => exact absurd (ih.2.symm.trans hw) (by simp)
      | endWrite hw => exact absurd (ih.2.symm.trans hw) (by simp)
      | _ => exact ih.2
  obtain ⟨hI, hw⟩ := hI
  have fin : ∀ (j : Nat) (p : APc) (s' : Agg), s.pc j ≠ .idle → p ≠ s.pc j → s'.pc = setPc s.pc j p → Agg.Step ⟨false, false, false⟩ s s' →
      ∃ s' j, Agg.Step ⟨false, false, false⟩ s s' ∧ s.pc j ≠ .idle ∧ s'.pc j ≠ s.pc j := by
    intro j p s' h1 h2 h3 h4
    exact ⟨s', j, h4, h1, by rw [h3, setPc_same]; exact h2⟩
  cases hm : s.mutex with
  | some j =>
    have hh := (hI.mutex j).2 hm
    cases hp : s.pc j with
    | idle => rw [hp] at hh; cases hh
    | inside => rw [hp] at hh; cases hh
    | wrote => rw [hp] at hh; cases hh
    | lost => rw [hp] at hh; cases hh
    | queued b => rw [hp] at hh; cases hh
    | out ok => rw [hp] at hh; cases hh
    | holds => exact fin j .sleeping _ (by simp [hp]) (by simp [hp]) rfl (.setFlag j hp)
    | sleeping => exact fin j .woken _ (by simp [hp]) (by simp [hp]) rfl (.wake j hp)
    | woken => exact fin j .syncing _ (by simp [hp]) (by simp [hp]) rfl (.syncBegin j hp hw)
    | syncing => exact fin j (.leaving true) _ (by simp [hp]) (by simp [hp]) rfl (.syncOk j hp)
    | leaving ok => exact fin j (.out ok) _ (by simp [hp]) (by simp [hp]) rfl (.unlock j ok hp)
  | none =>
    have hh : (s.pc i).holding = false := by
      cases e : (s.pc i).holding with
      | false => rfl
      | true => rw [(hI.mutex i).1 e] at hm; cases hm
    cases hp : s.pc i with
    | idle => exact absurd hp hi
    | inside => exact fin i .wrote _ (by simp [hp]) (by simp [hp]) rfl (.write i false hp (by simp))
    | wrote => exact fin i .holds _ (by simp [hp]) (by simp [hp]) rfl (.tryOk i hp hm)
    | lost => exact fin i (.queued s.delay) _ (by simp [hp]) (by simp [hp]) rfl (.load i hp)
    | queued b => exact fin i (if b then .leaving true else .holds) _ (by simp [hp]) (by cases b <;> simp [hp]) rfl (.lock i b hp hm)
    | out ok => exact fin i .idle _ (by simp [hp]) (by simp [hp]) rfl (.ret i ok hp)
    | holds => rw [hp] at hh; cases hh
    | sleeping => rw [hp] at hh; cases hh
    | woken => rw [hp] at hh; cases hh
    | syncing => rw [hp] at hh; cases hh
    | leaving ok => rw [hp] at hh; cases hh

/-- **C46**: worse, the calls may never return. `flush` locks `files` for reading while the call holds it for reading already
(src/shard.rs:742 and 532); if a compaction asks for it in between, all three wait for each other. In this reachable state a call is in progress
and no step is possible at all, now or ever: the shard is dead. -/
theorem C46_refuted_deadlock : ∃ s, Agg.Run ⟨false, true, false⟩ s ∧ s.pc 0 = .woken ∧ ∀ s', ¬ Agg.Step ⟨false, true, false⟩ s s' := by
  have r := @Agg.Run.init ⟨false, true, false⟩
  have r := r.step (.enter 0 rfl rfl)
  have r := r.step (.write 0 false rfl (by simp))
  have r := r.step (.tryOk 0 rfl rfl)
  have r := r.step (.setFlag 0 rfl)
  have r := r.step (.wake 0 rfl)
  have r := r.step (.askWrite rfl rfl)
  refine ⟨_, r, rfl, fun s' hs => ?_⟩
  have only : ∀ {i : Nat} {p : APc}, setPc (setPc (setPc (setPc (setPc Agg.init.pc 0 .inside) 0 .wrote) 0 .holds) 0 .sleeping) 0 .woken i = p →
      p = .woken ∨ p = .idle := by
    intro i p e
    by_cases hi : i = 0
    · subst hi; rw [setPc_same] at e; exact .inl e.symm
    · rw [setPc_other _ _ hi, setPc_other _ _ hi, setPc_other _ _ hi, setPc_other _ _ hi, setPc_other _ _ hi] at e; exact .inr e.symm
  cases hs with
  | enter i h hw => cases hw
  | write i b h hb => rcases only h with h | h <;> cases h
  | tryOk i h hm => rcases only h with h | h <;> cases h
  | tryFail i h hm => rcases only h with h | h <;> cases h
  | load i h => rcases only h with h | h <;> cases h
  | loadStale i h hm => rcases only h with h | h <;> cases h
  | lock i b h hm => rcases only h with h | h <;> cases h
  | setFlag i h => rcases only h with h | h <;> cases h
  | wake i h => rcases only h with h | h <;> cases h
  | syncBegin i h hw => cases hw
  | syncOk i h => rcases only h with h | h <;> cases h
  | syncFail i h hm => rcases only h with h | h <;> cases h
  | unlock i ok h => rcases only h with h | h <;> cases h
  | ret i ok h => rcases only h with h | h <;> cases h
  | askWrite h hm => cases h
  | getWrite h hr => cases hr
  | endWrite h => cases h

end Candy.Props
