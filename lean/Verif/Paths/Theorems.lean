import Verif.Paths.Model
/-! C99: where files are. -/
namespace Verif.Paths

/-! ### Helper facts -/

theorem below_iff (d p : Text) : d.isPrefixOf p = true ↔ Below d p := by
  rw [List.isPrefixOf_iff_prefix]
  exact ⟨fun ⟨r, h⟩ => ⟨r, h.symm⟩, fun ⟨r, h⟩ => ⟨r, h.symm⟩⟩

theorem below_total {a b : Text} : ∀ {p : Text}, Below a p → Below b p → Below a b ∨ Below b a := by
  intro p ha hb
  rw [← below_iff, List.isPrefixOf_iff_prefix] at ha hb ⊢
  rw [← below_iff, List.isPrefixOf_iff_prefix]
  exact List.prefix_or_prefix_of_prefix ha hb

theorem mem_cleanup {d p : Text} {l : List Text} : p ∈ cleanup d l ↔ p ∈ l ∧ (d = [] ∨ ¬ Below d p) := by
  unfold cleanup
  split
  · rename_i h; simp [h]
  · rename_i h
    rw [List.mem_filter, ← below_iff]
    cases List.isPrefixOf d p <;> simp [h]

theorem dirOf_append (a : Nat) (q : Proc) : ∀ ps : List Proc,
    dirOf a (ps ++ [q]) = if a ∈ ps.map Proc.pid then dirOf a ps else if q.pid = a then q.cached else []
  | [] => by simp [dirOf]
  | p :: ps => by
    rw [List.cons_append, dirOf, dirOf, dirOf_append a q ps]
    by_cases h : p.pid = a
    · simp [h]
    · have h' : ¬ a = p.pid := fun e => h e.symm
      simp [h, h']

theorem dirOf_absent (a : Nat) : ∀ ps : List Proc, a ∉ ps.map Proc.pid → dirOf a ps = []
  | [], _ => rfl
  | p :: ps, h => by
    simp only [List.map_cons, List.mem_cons, not_or] at h
    rw [dirOf, if_neg (fun e => h.1 e.symm), dirOf_absent a ps h.2]

theorem dirOf_start (a pid : Nat) (ps : List Proc) : dirOf a (ps ++ [⟨pid, []⟩]) = dirOf a ps := by
  rw [dirOf_append]
  split
  · rfl
  · rename_i h; rw [dirOf_absent a ps h]; split <;> rfl

theorem dirOf_setDir (a b : Nat) (d : Text) : ∀ ps : List Proc, a ∈ ps.map Proc.pid →
    dirOf b (setDir a d ps) = if b = a then d else dirOf b ps
  | [], h => by simp at h
  | p :: ps, h => by
    unfold setDir
    by_cases hp : p.pid = a
    · rw [if_pos hp]
      by_cases hb : b = a
      · simp [dirOf, hp, hb]
      · have : ¬ a = b := fun e => hb e.symm
        simp [dirOf, hp, hb, this]
    · rw [if_neg hp]
      have h' : a ∈ ps.map Proc.pid := by
        simp only [List.map_cons, List.mem_cons] at h
        rcases h with h | h
        · exact absurd h.symm hp
        · exact h
      rw [dirOf, dirOf, dirOf_setDir a b d ps h']
      by_cases hb : b = a
      · subst hb; simp [hp]
      · simp [hb]

theorem dirOf_filter (a b : Nat) : ∀ ps : List Proc,
    dirOf b (ps.filter fun p => p.pid ≠ a) = if b = a then [] else dirOf b ps
  | [] => by simp [dirOf]
  | p :: ps => by
    have ih := dirOf_filter a b ps
    by_cases hp : p.pid = a
    · rw [List.filter_cons_of_neg (by simp [hp]), ih, dirOf]
      by_cases hb : b = a
      · simp [hb]
      · have : ¬ p.pid = b := fun e => hb (e.symm.trans hp)
        simp [hb, this]
    · rw [List.filter_cons_of_pos (by simp [hp]), dirOf, dirOf, ih]
      by_cases hb : b = a
      · have : ¬ p.pid = b := fun e => hp (e.trans hb)
        subst hb; simp [hp]
      · simp [hb]

/-! ### Paths -/

/-- For all paths that name no other user: the path that is opened is the one that is meant, and no other. -/
theorem path_meant_partial (home : Text) (homeOf : Text → Text) (p q : Text)
    (hp : p.head? ≠ some '~' ∨ p = ['~'] ∨ ∃ r, p = '~' :: '/' :: r) :
    openedForTensor (some home) p = .ok q ↔ Means home homeOf p q := by
  unfold openedForTensor
  constructor
  · intro h
    rcases hp with hp | rfl | ⟨r, rfl⟩
    · have : sanitizePath (some home) p = .ok p := by
        unfold sanitizePath
        split
        · simp at hp
        · rfl
      rw [this] at h
      cases h
      exact .plain p hp
    · simp only [sanitizePath, List.append_nil, Outcome.ok.injEq] at h
      rw [← h]; exact .own
    · simp only [sanitizePath, Outcome.ok.injEq] at h
      rw [← h]; exact .inOwn r
  · intro h
    cases h with
    | own => simp [sanitizePath]
    | inOwn r => simp [sanitizePath]
    | other u h1 h2 =>
      rcases hp with hp | hp | ⟨r, hp⟩
      · simp at hp
      · simp at hp; exact absurd hp h1
      · simp at hp; rw [hp] at h2; simp at h2
    | inOther u r h1 h2 =>
      rcases hp with hp | hp | ⟨r', hp⟩
      · simp at hp
      · simp at hp
      · cases u with
        | nil => exact absurd rfl h1
        | cons c u => simp at hp; rw [hp.1] at h2; simp at h2
    | plain _ h =>
      unfold sanitizePath
      split
      · simp at h
      · rfl

example : openedForTensor (some "/home/me".toList) "~/A.tns".toList = .ok "/home/me/A.tns".toList := by decide +kernel
example : openedForTensor none "/data/A.tns".toList = .ok "/data/A.tns".toList := by decide +kernel

/-- The directory of another user is taken for a file next to the own home directory: for all names. -/
theorem other_user_fails :
    (∀ home u r : Text, openedForTensor (some home) ('~' :: (u ++ '/' :: r)) = .ok (home ++ (u ++ '/' :: r))) ∧
    ∃ home homeOf p q, Means home homeOf p q ∧ openedForTensor (some home) p ≠ .ok q :=
  ⟨fun _ _ _ => rfl, "/home/me".toList, fun u => "/home/".toList ++ u, "~ann/A.tns".toList, "/home/ann/A.tns".toList,
    Means.inOther "ann".toList "A.tns".toList (by decide) (by decide), by decide +kernel⟩

/-- Without the variable `HOME`, every path that begins with `~` has no defined meaning. -/
theorem no_home_fails (r : Text) : openedForTensor none ('~' :: r) = .undefined := rfl

/-- The same text is another file for the options that write code and times: for all home directories. -/
theorem options_disagree_fails (home r : Text) (h : home ≠ ['~']) :
    openedForTensor (some home) ('~' :: '/' :: r) ≠ openedForSource (some home) ('~' :: '/' :: r) := by
  intro e
  simp only [openedForTensor, openedForSource, sanitizePath, Outcome.ok.injEq] at e
  apply h
  have : home ++ '/' :: r = ['~'] ++ '/' :: r := e
  exact List.append_cancel_right this

example : "/root".toList ≠ ['~'] := by decide

/-! ### The temporary directory -/

theorem addSlash_snoc (t : Text) : addSlash (t ++ ['/']) = t ++ ['/'] := by
  simp [addSlash]

theorem addSlash_other (t : Text) (h : t.getLast? ≠ some '/') : addSlash t = t ++ ['/'] := by
  simp [addSlash, h]

/-- For all absolute paths: the temporary directory is a new directory in the one that `TMPDIR` names, with or without
a slash at its end, and in `/tmp` if it is not set. -/
theorem tmpdir_where (t s : Text) (ht : t = [] ∨ t.head? = some '/') (hs : s ≠ []) (hl : '/' ∉ s) :
    getTmpdir (some (t ++ ['/'])) true (some s) [] = .ok (t ++ "/taco_tmp_".toList ++ s ++ ['/']) ∧
    (t ≠ [] → t.getLast? ≠ some '/' →
      getTmpdir (some t) true (some s) [] = .ok (t ++ "/taco_tmp_".toList ++ s ++ ['/'])) ∧
    getTmpdir none true (some s) [] = .ok ("/tmp/taco_tmp_".toList ++ s ++ ['/']) := by
  have key : ∀ b : Text, addSlash (b ++ template ++ s) = b ++ template ++ s ++ ['/'] := by
    intro b
    apply addSlash_other
    intro e
    rw [List.getLast?_append] at e
    cases hg : s.getLast? with
    | none => exact hs (List.getLast?_eq_none_iff.mp hg)
    | some c =>
      rw [hg] at e
      simp only [Option.some_or, Option.some.injEq] at e
      exact hl (e ▸ List.mem_of_getLast? hg)
  have main : ∀ (u b : Text), u.head? = some '/' → addSlash u = b →
      getTmpdir (some u) true (some s) [] = .ok (b ++ template ++ s ++ ['/']) := by
    intro u b hu hb
    cases u with
    | nil => simp at hu
    | cons c u =>
      simp only [List.head?_cons, Option.some.injEq] at hu
      subst hu
      show Outcome.ok (addSlash (addSlash ('/' :: u) ++ template ++ s)) = _
      rw [hb, key]
  have e : ∀ t : Text, t ++ ['/'] ++ template = t ++ "/taco_tmp_".toList := by
    intro t; rw [List.append_assoc]; rfl
  refine ⟨?_, ?_, ?_⟩
  · rw [main (t ++ ['/']) (t ++ ['/']) ?_ (addSlash_snoc t), e]
    rcases ht with rfl | ht
    · rfl
    · cases t with
      | nil => rfl
      | cons c t => simpa using ht
  · intro h0 h1
    rw [main t (t ++ ['/']) ?_ (addSlash_other t h1), e]
    rcases ht with rfl | ht
    · exact absurd rfl h0
    · exact ht
  · exact main "/tmp/".toList "/tmp/".toList rfl (by decide)

example : getTmpdir (some "/scratch".toList) true (some "a1B2c3".toList) [] = .ok "/scratch/taco_tmp_a1B2c3/".toList := by
  decide +kernel

/-- Relative paths, directories that cannot be written and failures to make a directory are reported: exactly these. -/
theorem tmpdir_reported (t : Text) (ht : t ≠ []) (writable : Bool) (made : Option Text) :
    getTmpdir (some t) writable made [] = .reported ↔ t.head? ≠ some '/' ∨ writable = false ∨ made = none := by
  cases t with
  | nil => exact absurd rfl ht
  | cons c t =>
    unfold getTmpdir
    by_cases hc : c = '/'
    · cases writable <;> cases made <;> simp [hc]
    · simp [hc]

example : getTmpdir (some "tmp".toList) true (some "abcdef".toList) [] = .reported := by decide +kernel

/-- A variable `TMPDIR` that is set to nothing is not reported: what happens is undefined. -/
theorem tmpdir_empty_fails (writable : Bool) (made : Option Text) : getTmpdir (some []) writable made [] = .undefined :=
  rfl

/-- Every later call gives the same directory, whatever the environment is by then. -/
theorem tmpdir_same (env env' : Option Text) (w w' : Bool) (m m' : Option Text) (d : Text)
    (h : getTmpdir env w m [] = .ok d) : getTmpdir env' w' m' d = .ok d ∧ d.head? = some '/' ∧ d.getLast? = some '/' := by
  unfold getTmpdir at h
  simp only [if_true] at h
  split at h
  · cases h
  · rename_i c t _
    split at h
    · rename_i hc
      split at h
      · cases m with
        | none => cases h
        | some s =>
          simp only [Outcome.ok.injEq] at h
          have hd : d.head? = some '/' := by
            rw [← h]
            unfold addSlash
            subst hc
            split <;> split <;> simp
          have hl : d.getLast? = some '/' := by
            rw [← h]
            generalize addSlash (c :: t) ++ template ++ s = u
            unfold addSlash
            split
            · assumption
            · simp
          refine ⟨?_, hd, hl⟩
          unfold getTmpdir
          rw [if_neg]
          intro e; rw [e] at hd; cases hd
      · cases h
    · cases h

example : getTmpdir (some []) false none "/tmp/taco_tmp_abcdef/".toList = .ok "/tmp/taco_tmp_abcdef/".toList := by
  decide +kernel

/-! ### Histories of processes -/

/-- What holds of an event when it happens, in an environment where no process duplicates itself: numbers of processes
that start are new, events are those of processes that run, `mkdtemp` makes a directory that is new, and it is not made
in the temporary directory of another process. -/
def Usual (s : State) : Event → Prop
  | .start pid => pid ∉ s.procs.map Proc.pid
  | .tmpdir pid env w m => pid ∈ s.procs.map Proc.pid ∧ ∀ d, getTmpdir env w m [] = .ok d →
      (∀ p ∈ s.paths, ¬ Below d p) ∧ ∀ q, dirOf q s.procs ≠ [] → ¬ Below (dirOf q s.procs) d
  | .write pid _ => pid ∈ s.procs.map Proc.pid
  | .fork _ _ => False
  | .exit pid => pid ∈ s.procs.map Proc.pid

/-- Histories of usual events. -/
inductive Runs (debug : Bool) : State → List Event → State → Prop where
  | nil (s : State) : Runs debug s [] s
  | cons {s s' s'' : State} {e : Event} {es : List Event} : Usual s e → step debug s e = .ok s' → Runs debug s' es s'' →
      Runs debug s (e :: es) s''

/-- Directories of processes exist and none is in another. -/
def Inv (s : State) : Prop :=
  (∀ a, dirOf a s.procs ≠ [] → dirOf a s.procs ∈ s.paths) ∧
  ∀ a b, a ≠ b → dirOf a s.procs ≠ [] → dirOf b s.procs ≠ [] → ¬ Below (dirOf a s.procs) (dirOf b s.procs)

/-- The two cases of a call for the directory. -/
theorem step_tmpdir {debug : Bool} {s s' : State} {pid : Nat} {env : Option Text} {w : Bool} {m : Option Text}
    (h : step debug s (.tmpdir pid env w m) = .ok s') :
    s' = s ∨ ∃ d, dirOf pid s.procs = [] ∧ getTmpdir env w m [] = .ok d ∧ s' = ⟨setDir pid d s.procs, s.paths ++ [d]⟩ := by
  simp only [step] at h
  split at h
  · rename_i d hd
    split at h
    · rename_i he
      rw [he] at hd
      cases h
      exact .inr ⟨d, he, hd, rfl⟩
    · cases h; exact .inl rfl
  · cases h; exact .inl rfl
  · cases h

theorem step_inv {debug : Bool} {s s' : State} {e : Event} (hi : Inv s) (hu : Usual s e)
    (h : step debug s e = .ok s') : Inv s' := by
  obtain ⟨h1, h2⟩ := hi
  cases e with
  | start pid =>
    cases h
    refine ⟨fun a ha => ?_, fun a b hab ha hb => ?_⟩ <;> simp only [dirOf_start] at *
    · exact h1 a ha
    · exact h2 a b hab ha hb
  | tmpdir pid env w m =>
    rcases step_tmpdir h with rfl | ⟨d, h0, hd, rfl⟩
    · exact ⟨h1, h2⟩
    · obtain ⟨hr, hu⟩ := hu
      obtain ⟨u1, u2⟩ := hu d hd
      have e : ∀ b, dirOf b (setDir pid d s.procs) = if b = pid then d else dirOf b s.procs :=
        fun b => dirOf_setDir pid b d s.procs hr
      refine ⟨fun a ha => ?_, fun a b hab ha hb => ?_⟩ <;> simp only [e] at *
      · by_cases hap : a = pid
        · simp [hap]
        · simp only [hap, if_false] at ha ⊢
          exact List.mem_append.mpr (.inl (h1 a ha))
      · by_cases hap : a = pid
        · have hbp : ¬ b = pid := fun e => hab (hap.trans e.symm)
          simp only [hap, hbp, if_true, if_false] at ha hb ⊢
          exact u1 _ (h1 b hb)
        · by_cases hbp : b = pid
          · simp only [hap, hbp, if_true, if_false] at ha hb ⊢
            exact u2 a ha
          · simp only [hap, hbp, if_false] at ha hb ⊢
            exact h2 a b hab ha hb
  | write pid p =>
    cases h
    exact ⟨fun a ha => List.mem_append.mpr (.inl (h1 a ha)), h2⟩
  | fork _ _ => exact hu.elim
  | exit pid =>
    cases h
    have e : ∀ b, dirOf b (s.procs.filter fun p => p.pid ≠ pid) = if b = pid then [] else dirOf b s.procs :=
      fun b => dirOf_filter pid b s.procs
    refine ⟨fun a ha => ?_, fun a b hab ha hb => ?_⟩ <;> simp only [e] at *
    · by_cases hap : a = pid
      · simp [hap] at ha
      · simp only [hap, if_false] at ha ⊢
        split
        · exact h1 a ha
        · refine mem_cleanup.mpr ⟨h1 a ha, ?_⟩
          by_cases hd : dirOf pid s.procs = []
          · exact .inl hd
          · exact .inr (h2 pid a (fun e => hap e.symm) hd ha)
    · by_cases hap : a = pid
      · simp [hap] at ha
      · by_cases hbp : b = pid
        · simp [hbp] at hb
        · simp only [hap, hbp, if_false] at ha hb ⊢
          exact h2 a b hab ha hb

theorem runs_inv {debug : Bool} {s s' : State} {es : List Event} (h : Runs debug s es s') : Inv s → Inv s' := by
  induction h with
  | nil => exact id
  | cons hu hs _ ih => exact fun hi => ih (step_inv hi hu hs)

theorem step_keeps {debug : Bool} {s s' : State} {e : Event} {pid : Nat} {d f : Text} (hi : Inv s) (hu : Usual s e)
    (h : step debug s e = .ok s') (hne : e ≠ .exit pid) (hd : dirOf pid s.procs = d) (h0 : d ≠ [])
    (hf : d ++ f ∈ s.paths) : dirOf pid s'.procs = d ∧ d ++ f ∈ s'.paths := by
  obtain ⟨h1, h2⟩ := hi
  cases e with
  | start q => cases h; exact ⟨by rw [dirOf_start, hd], hf⟩
  | tmpdir q env w m =>
    rcases step_tmpdir h with rfl | ⟨d', h0', _, rfl⟩
    · exact ⟨hd, hf⟩
    · refine ⟨?_, List.mem_append.mpr (.inl hf)⟩
      show dirOf pid (setDir q d' s.procs) = d
      rw [dirOf_setDir q pid d' _ hu.1, if_neg, hd]
      intro e; rw [← e, hd] at h0'; exact h0 h0'
  | write q p => cases h; exact ⟨hd, List.mem_append.mpr (.inl hf)⟩
  | fork _ _ => exact hu.elim
  | exit q =>
    cases h
    have hq : pid ≠ q := fun e => hne (by rw [e])
    refine ⟨?_, ?_⟩
    · show dirOf pid (s.procs.filter fun p => p.pid ≠ q) = d
      rw [dirOf_filter, if_neg hq, hd]
    · show d ++ f ∈ (if debug then s.paths else cleanup (dirOf q s.procs) s.paths)
      split
      · exact hf
      · refine mem_cleanup.mpr ⟨hf, ?_⟩
        by_cases hq0 : dirOf q s.procs = []
        · exact .inl hq0
        · refine .inr fun hb => ?_
          have h3 := h2 pid q hq (by rw [hd]; exact h0) hq0
          have h4 := h2 q pid (fun e => hq e.symm) hq0 (by rw [hd]; exact h0)
          rw [hd] at h3 h4
          rcases below_total hb ⟨f, rfl⟩ with hb | hb
          · exact h4 hb
          · exact h3 hb

theorem runs_keeps {debug : Bool} {s s' : State} {es : List Event} {pid : Nat} {d f : Text} (h : Runs debug s es s') :
    Inv s → Event.exit pid ∉ es → dirOf pid s.procs = d → d ≠ [] → d ++ f ∈ s.paths →
    d ++ f ∈ s'.paths ∧ dirOf pid s'.procs = d := by
  induction h with
  | nil => exact fun _ _ hd _ hf => ⟨hf, hd⟩
  | cons hu hs _ ih =>
    intro hi hx hd h0 hf
    simp only [List.mem_cons, not_or] at hx
    have := step_keeps hi hu hs (fun e => hx.1 e.symm) hd h0 hf
    exact ih (step_inv hi hu hs) hx.2 this.1 h0 this.2

/-- No process runs; any files are there. -/
def begin (paths : List Text) : State := ⟨[], paths⟩

theorem begin_inv (paths : List Text) : Inv (begin paths) :=
  ⟨fun _ ha => absurd rfl ha, fun _ _ _ ha => absurd rfl ha⟩

/-- For all histories of any number of processes that do not duplicate themselves: what a process wrote to its temporary
directory is there, and the directory is the same, until that process ends, whatever the others do. -/
theorem files_stay_partial (debug : Bool) (paths : List Text) (h1 h2 : List Event) (s1 s2 : State) (pid : Nat)
    (d f : Text) (r1 : Runs debug (begin paths) h1 s1) (hd : dirOf pid s1.procs = d) (h0 : d ≠ [])
    (r2 : Runs debug s1 (.write pid (d ++ f) :: h2) s2) (hx : Event.exit pid ∉ h2) :
    d ++ f ∈ s2.paths ∧ dirOf pid s2.procs = d := by
  have hi : Inv s1 := runs_inv r1 (begin_inv paths)
  cases r2 with
  | cons hu hs r =>
    have hi' := step_inv hi hu hs
    cases hs
    exact runs_keeps r hi' hx hd h0 (by simp)

/-- In all such histories the directories of the processes exist, and those of two processes are apart: no file is in
both. -/
theorem directories_apart_partial (debug : Bool) (paths : List Text) (h : List Event) (s : State)
    (r : Runs debug (begin paths) h s) (a b : Nat) (hab : a ≠ b) (ha : dirOf a s.procs ≠ [])
    (hb : dirOf b s.procs ≠ []) :
    dirOf a s.procs ∈ s.paths ∧ ∀ p, ¬ (Below (dirOf a s.procs) p ∧ Below (dirOf b s.procs) p) := by
  obtain ⟨h1, h2⟩ := runs_inv r (begin_inv paths)
  refine ⟨h1 a ha, fun p ⟨pa, pb⟩ => ?_⟩
  rcases below_total pa pb with h | h
  · exact h2 a b hab ha hb h
  · exact h2 b a (fun e => hab e.symm) hb ha h

/-- A process that ends removes its directory with everything in it, and nothing else: for all states. With the
debugging option nothing is removed. -/
theorem exit_removes (s s' : State) (pid : Nat) (h : step false s (.exit pid) = .ok s') (p : Text) :
    p ∈ s'.paths ↔ p ∈ s.paths ∧ (dirOf pid s.procs = [] ∨ ¬ Below (dirOf pid s.procs) p) := by
  cases h
  exact mem_cleanup

theorem debug_leaves (s s' : State) (pid : Nat) (h : step true s (.exit pid) = .ok s') : s'.paths = s.paths := by
  cases h
  rfl

def tmp : Option Text := none
def two : List Event :=
  [.start 1, .start 2, .tmpdir 1 tmp true (some "aaaaaa".toList), .write 1 "/tmp/taco_tmp_aaaaaa/k.c".toList,
   .tmpdir 2 tmp true (some "bbbbbb".toList), .exit 2]

/-- A history with two processes that meets the hypotheses. -/
example : ∃ s, Runs false (begin ["/tmp/".toList]) two s ∧ "/tmp/taco_tmp_aaaaaa/k.c".toList ∈ s.paths := by
  refine ⟨⟨[⟨1, "/tmp/taco_tmp_aaaaaa/".toList⟩],
    ["/tmp/".toList, "/tmp/taco_tmp_aaaaaa/".toList, "/tmp/taco_tmp_aaaaaa/k.c".toList]⟩, ?_, by decide +kernel⟩
  refine .cons (by simp [Usual, begin]) rfl (.cons (by simp [Usual, begin]) rfl (.cons ?_ rfl (.cons ?_ rfl (.cons ?_ rfl
    (.cons ?_ (by decide +kernel) (.nil _))))))
  · refine ⟨by simp [begin], fun d hd => ?_⟩
    have : d = "/tmp/taco_tmp_aaaaaa/".toList := by
      have e : getTmpdir tmp true (some "aaaaaa".toList) [] = .ok "/tmp/taco_tmp_aaaaaa/".toList := by decide +kernel
      rw [e] at hd; cases hd; rfl
    subst this
    refine ⟨fun p hp => ?_, fun q hq => ?_⟩
    · rw [← below_iff]; revert p; decide +kernel
    · exact absurd (by simp [begin, dirOf]) hq
  · exact List.mem_cons_self
  · refine ⟨by decide, fun d hd => ?_⟩
    have : d = "/tmp/taco_tmp_bbbbbb/".toList := by
      have e : getTmpdir tmp true (some "bbbbbb".toList) [] = .ok "/tmp/taco_tmp_bbbbbb/".toList := by decide +kernel
      rw [e] at hd; cases hd; rfl
    subst this
    refine ⟨fun p hp => ?_, fun q hq => ?_⟩
    · rw [← below_iff]; revert p; decide +kernel
    · by_cases h1 : q = 1
      · subst h1; rw [← below_iff]; decide +kernel
      · have h1' : ¬ 1 = q := fun e => h1 e.symm
        by_cases h2 : 2 = q <;> simp [begin, dirOf, setDir, h1', h2] at hq
  · unfold Usual
    decide +kernel

/-- A process that duplicates itself loses its files when the duplicate ends, although it runs on and still uses the
directory: in all states. -/
theorem fork_fails (s : State) (pid new : Nat) (hr : pid ∈ s.procs.map Proc.pid) (hn : new ∉ s.procs.map Proc.pid)
    (h0 : dirOf pid s.procs ≠ []) :
    ∃ s', run false s [.fork pid new, .exit new] = .ok s' ∧ dirOf pid s'.procs = dirOf pid s.procs ∧
      ∀ p ∈ s'.paths, ¬ Below (dirOf pid s.procs) p := by
  have hne : pid ≠ new := fun e => hn (e ▸ hr)
  refine ⟨_, rfl, ?_, ?_⟩
  · show dirOf pid (List.filter (fun p => p.pid ≠ new) (s.procs ++ [⟨new, dirOf pid s.procs⟩])) = _
    rw [dirOf_filter, if_neg hne, dirOf_append, if_pos hr]
  · intro p hp
    have hp' : p ∈ cleanup (dirOf new (s.procs ++ [⟨new, dirOf pid s.procs⟩])) s.paths := hp
    rw [dirOf_append, if_neg hn, if_pos rfl, mem_cleanup] at hp'
    exact hp'.2.resolve_left h0

example : 1 ∈ (State.mk [⟨1, "/tmp/taco_tmp_aaaaaa/".toList⟩] []).procs.map Proc.pid := by decide

/-- A process whose `TMPDIR` is in the temporary directory of another one, as for a program that is started by a
process with a temporary directory of its own, loses its files when that one ends. -/
theorem nested_fails : ∃ (es : List Event) (s : State), run false (begin []) es = .ok s ∧
    dirOf 2 s.procs = "/tmp/taco_tmp_aaaaaa/taco_tmp_bbbbbb/".toList ∧ dirOf 2 s.procs ∉ s.paths :=
  ⟨[.start 1, .start 2, .tmpdir 1 none true (some "aaaaaa".toList),
    .tmpdir 2 (some "/tmp/taco_tmp_aaaaaa".toList) true (some "bbbbbb".toList), .exit 1],
    ⟨[⟨2, "/tmp/taco_tmp_aaaaaa/taco_tmp_bbbbbb/".toList⟩], []⟩, by decide +kernel, by decide +kernel, by decide +kernel⟩

/-! ### The tensors that `-O` writes -/

theorem run_writes (debug : Bool) (pid : Nat) (es : List Event) : ∀ (fs : List Text) (s : State),
    run debug s (fs.map (.write pid) ++ es) = run debug { s with paths := s.paths ++ fs } es
  | [], s => by simp
  | f :: fs, s => by
    show run debug { s with paths := s.paths ++ [f] } (fs.map (.write pid) ++ es) = _
    rw [run_writes debug pid es fs]
    simp

/-- For all directories that are named and all tensors: after the program has ended every tensor is in a file in that
directory, if the directory is not in the temporary directory. -/
theorem output_kept (home : Option Text) (arg : Text) (env : Option Text) (w : Bool) (m : Option Text)
    (names files : List Text) (s : State) (pid : Nat) (d : Text) (ha : arg ≠ [])
    (hd : outputDirectory arg env w m (dirOf pid s.procs) = .ok d) (hf : outputFiles home d names = .ok files)
    (hb : ∀ f ∈ files, dirOf pid s.procs = [] ∨ ¬ Below (dirOf pid s.procs) f) :
    d = arg ∧ ∃ s', run false s (files.map (.write pid) ++ [.exit pid]) = .ok s' ∧ ∀ f ∈ files, f ∈ s'.paths := by
  rw [outputDirectory, if_pos ha] at hd
  refine ⟨by cases hd; rfl, _, by rw [run_writes]; rfl, fun f h => ?_⟩
  exact mem_cleanup.mpr ⟨List.mem_append.mpr (.inr h), hb f h⟩

example : outputDirectory "out".toList none false none [] = .ok "out".toList ∧
    outputFiles none "out".toList ["A".toList] = .ok ["out/A.tns".toList] := by decide +kernel

theorem files_named (home : Option Text) (d : Text) (hd : d.head? ≠ some '~') (h0 : d ≠ []) : ∀ names : List Text,
    outputFiles home d names = .ok (names.map fun n => d ++ '/' :: n ++ ".tns".toList)
  | [] => rfl
  | n :: ns => by
    have e : sanitizePath home (d ++ '/' :: n ++ ".tns".toList) = .ok (d ++ '/' :: n ++ ".tns".toList) := by
      cases d with
      | nil => exact absurd rfl h0
      | cons c d =>
        unfold sanitizePath
        split
        · rename_i h
          simp only [List.cons_append, List.cons.injEq] at h
          exact absurd (by simp [h.1]) hd
        · rfl
    rw [outputFiles, e, files_named home d hd h0 ns]
    rfl

/-- The files are named after the tensors: for all directories that are not given relative to a home directory. -/
theorem output_names (home : Option Text) (d : Text) (hd : d.head? ≠ some '~') (h0 : d ≠ []) (names : List Text) :
    outputFiles home d names = .ok (names.map fun n => d ++ '/' :: n ++ ".tns".toList) := files_named home d hd h0 names

example : outputFiles none "out".toList ["A".toList, "B".toList] = .ok ["out/A.tns".toList, "out/B.tns".toList] := by
  decide +kernel

/-- Without a directory, `-O` writes all tensors to a directory that the program removes when it ends: for all
environments and tensors nothing of what was written is left. -/
theorem output_default_fails (home : Option Text) (env : Option Text) (w : Bool) (m : Option Text) (names : List Text)
    (s : State) (pid : Nat) (d : Text) (hr : pid ∈ s.procs.map Proc.pid) (h0 : dirOf pid s.procs = [])
    (hd : outputDirectory [] env w m [] = .ok d) :
    ∃ files s', outputFiles home d names = .ok files ∧
      run false s (.tmpdir pid env w m :: (files.map (.write pid) ++ [.exit pid])) = .ok s' ∧
      files.length = names.length ∧ ∀ f ∈ files, f ∉ s'.paths := by
  have hd' : getTmpdir env w m [] = .ok d := hd
  have hh := (tmpdir_same env env w w m m d hd').2.1
  have hne : d ≠ [] := by intro e; rw [e] at hh; cases hh
  have hn : d.head? ≠ some '~' := by rw [hh]; decide
  have hs : step false s (.tmpdir pid env w m) = .ok ⟨setDir pid d s.procs, s.paths ++ [d]⟩ := by
    simp only [step, h0, hd', if_true]
  have hrun : ∀ fs : List Text, run false s (.tmpdir pid env w m :: (fs.map (.write pid) ++ [.exit pid])) =
      .ok ⟨(setDir pid d s.procs).filter fun p => p.pid ≠ pid,
        cleanup (dirOf pid (setDir pid d s.procs)) (s.paths ++ [d] ++ fs)⟩ := by
    intro fs
    rw [run, hs]
    exact run_writes false pid [.exit pid] fs _
  refine ⟨_, _, files_named home d hn hne names, hrun _, by simp, ?_⟩
  · intro f hf hmem
    have hm := mem_cleanup.mp hmem
    have e : dirOf pid (setDir pid d s.procs) = d := by rw [dirOf_setDir pid pid d _ hr, if_pos rfl]
    rcases hm.2 with h | h
    · exact hne (e.symm.trans h)
    · apply h
      rw [e]
      obtain ⟨n, _, rfl⟩ := List.mem_map.mp hf
      exact ⟨'/' :: n ++ ".tns".toList, by simp⟩

example : outputDirectory [] none true (some "abcdef".toList) [] = .ok "/tmp/taco_tmp_abcdef/".toList := by decide +kernel

/-! ### The command that compiles code -/

theorem WordsOf.no_blank {t : Text} {ws : List Text} (h : WordsOf t ws) : ∀ w ∈ ws, ' ' ∉ w := by
  induction h with
  | nil => simp
  | blank _ _ _ ih => exact ih
  | last w _ hb => simpa using hb
  | word w t ws _ hb _ ih =>
    intro v hv
    rcases List.mem_cons.mp hv with rfl | hv
    · exact hb
    · exact ih v hv

theorem WordsOf.append {a b : Text} {ws vs : List Text} (ha : WordsOf a ws) (hb : WordsOf b vs) :
    WordsOf (a ++ ' ' :: b) (ws ++ vs) := by
  induction ha with
  | nil => exact .blank _ _ hb
  | blank t ws _ ih => exact .blank _ _ ih
  | last w h0 h1 => exact .word w b vs h0 h1 hb
  | word w t ws h0 h1 _ ih =>
    rw [List.append_assoc]
    exact .word w (t ++ ' ' :: b) (ws ++ vs) h0 h1 ih

/-- For all compilers, options and directories without blanks: the compiler is given its options, the source and the
library as they are, each as one word. -/
theorem command_words_partial (cc cflags tmpdir libname : Text) (ccs flags : List Text) (hc : WordsOf cc ccs)
    (hf : WordsOf cflags flags) (ht : ' ' ∉ tmpdir) (hl : ' ' ∉ libname) :
    WordsOf (command cc cflags tmpdir libname)
      (ccs ++ flags ++ [tmpdir ++ libname ++ ".c".toList, "-o".toList, tmpdir ++ libname ++ ".so".toList, "-lm".toList]) := by
  have w : ∀ e : Text, e ≠ [] → ' ' ∉ e → tmpdir ++ libname ++ e ≠ [] ∧ ' ' ∉ tmpdir ++ libname ++ e := by
    intro e h0 h1
    exact ⟨by simp [h0], by simp [ht, hl, h1]⟩
  have w1 := w ".c".toList (by decide) (by decide)
  have w2 := w ".so".toList (by decide) (by decide)
  have e1 : WordsOf ("-o ".toList ++ (tmpdir ++ libname ++ ".so".toList) ++ " -lm".toList)
      ["-o".toList, tmpdir ++ libname ++ ".so".toList, "-lm".toList] := by
    rw [List.append_assoc]
    exact .word "-o".toList _ _ (by decide) (by decide)
      (.word _ "-lm".toList _ w2.1 w2.2 (.last _ (by decide) (by decide)))
  have e2 := WordsOf.append (WordsOf.last _ w1.1 w1.2) (WordsOf.blank _ _ e1)
  have := hc.append (hf.append e2)
  simpa [command] using this

example : WordsOf "-O3 -fPIC".toList ["-O3".toList, "-fPIC".toList] :=
  .word "-O3".toList "-fPIC".toList _ (by decide) (by decide) (.last _ (by decide) (by decide))

/-- With a blank in the path of the temporary directory the compiler is never given the source or the library: for all
such directories, whatever the compiler and its options are. -/
theorem command_blank_fails (cc cflags tmpdir libname : Text) (ht : ' ' ∈ tmpdir) (ws : List Text)
    (h : WordsOf (command cc cflags tmpdir libname) ws) :
    tmpdir ++ libname ++ ".c".toList ∉ ws ∧ tmpdir ++ libname ++ ".so".toList ∉ ws :=
  ⟨fun hm => h.no_blank _ hm (by simp [ht]), fun hm => h.no_blank _ hm (by simp [ht])⟩

example : getTmpdir (some "/my tmp".toList) true (some "abcdef".toList) [] = .ok "/my tmp/taco_tmp_abcdef/".toList := by
  decide +kernel

end Verif.Paths
