import Verif.Runtime.Async

/-!
# Asynchronous reading and writing: concrete cases (C73, C74)
-/

namespace Verif.Rt.AsyncEx

/-! ## Reading -/

/-- The events to come; the end of the input is an error. -/
def src : SyncReader (List Event) Nat :=
  plainReader (fun r => match r with | [] => (.error 7, []) | e :: es => (.ok e, es)) List.length

/-- The same, where a poll finds that there is no data yet (`false`) or that there is (`true`). -/
def asrc : AsyncReader (List Event) (List Event) Bool Nat where
  begin := id
  poll := fun f w => if w then .ready (src.read f).1 (src.read f).2 else .pending f
  extend := src.extend

theorem asrc_agrees : SameReads src asrc (fun r f => f = r) where
  begin := fun _ => rfl
  pending := by
    intro r f w f' hf h
    cases w <;> simp [asrc] at h
    exact h ▸ hf
  event := by
    intro r f w e r' hf h
    cases w <;> simp [asrc] at h
    rw [← hf, ← h.1, ← h.2]
  error := by
    intro r f w e r' hf h
    cases w <;> simp [asrc] at h
    exact ⟨e, by rw [← hf, ← h.1, ← h.2], rfl⟩
  extend := fun _ _ => rfl

theorem asrc_overwrites : Overwrites asrc.extend := fun _ _ _ _ => rfl

/-- Counts the texts of an element. -/
def counter : Deser Unit (RErr Nat) Nat where
  S := Nat
  init := fun h e =>
    match e with
    | .start _ => .ok (⟨.deser 0, .none, false⟩, h)
    | e => .ok (⟨.none, .cont e, false⟩, h)
  next := fun n h e =>
    match e with
    | .text _ => .ok (⟨.deser (n + 1), .none, false⟩, h)
    | .end_ _ => .ok (⟨.data n, .none, false⟩, h)
    | e => .ok (⟨.deser n, .cont e, false⟩, h)
  finish := fun n _ => .ok n

def env : Env Unit (RErr Nat) := ⟨fun h _ => h, fun _ => { kind := 1 }⟩

def tag (c : Char) : Tag := ⟨[c], []⟩

/-- The result, if the task has finished. -/
def result {F R H S K V : Type} : Task F R H S K V → Option (Except (RErr K) V × R)
  | .finished res r => some (res, r)
  | .reading _ _ => none

/-- `<a>x<!-- -->y</a>`, with and without delays, is read to the end tag; the rest stays. -/
example :
    (match result (asrc.withInfo.run env counter () ([.start (tag 'a'), .text ['x'], .comment [], .text ['y'],
        .end_ ['a'], .eof], []) [false, true, false, false, true, true, true, false, true]) with
      | some (.ok v, r) => decide (v = 2 ∧ r = ([.eof], []))
      | _ => false) = true ∧
    (result (asrc.withInfo.run env counter () ([.start (tag 'a'), .text ['x']], []) [false, true, false])).isNone := by
  decide +kernel

/-- An unexpected element, and the end of the input: the error has the position and the path of elements. -/
example :
    (match result (asrc.withInfo.run env counter () ([.start (tag 'a'), .start (tag 'b'), .eof], [])
        [true, false, true]) with
      | some (.error e, _) => decide (e = ⟨1, some 1, some [['a'], ['b']]⟩)
      | _ => false) = true ∧
    (match result (asrc.withInfo.run env counter () ([.start (tag 'a'), .text ['x']], [])
        [true, false, true, false, true]) with
      | some (.error e, _) => decide (e = ⟨7, some 0, some [['a']]⟩)
      | _ => false) = true := by
  decide +kernel

/-- Non-vacuity of `C73_async_read_equals_sync`, `C73_async_read_returns` and `C73_error_reader_agrees`: the readers above
agree, and a schedule that finds data at every second poll is fair. -/
example : SameReads src.withInfo asrc.withInfo (fun r f => f.1 = r.1 ∧ r.2 = f.2) ∧
    Fair asrc.withInfo (fun i => i % 2 == 1) ∧ ¬ Fair asrc.withInfo (fun _ => false) := by
  refine ⟨C73_error_reader_agrees src asrc asrc_agrees asrc_overwrites, ?_, ?_⟩
  · rintro ⟨r, i⟩ k
    have hp : ∀ f : List Event × List Str, ∃ x r, asrc.withInfo.poll f true = .ready x r := by
      rintro ⟨f, i⟩
      simp only [AsyncReader.withInfo, asrc, if_true]
      cases (src.read f).1 with
      | ok e => exact ⟨_, _, rfl⟩
      | error e => exact ⟨_, _, rfl⟩
    rcases Nat.mod_two_eq_zero_or_one k with hk | hk
    · refine ⟨1, (r, i), ?_, ?_⟩
      · simp [AsyncReader.withInfo, asrc, hk]
      · show ∃ x r', asrc.withInfo.poll (r, i) ((k + (0 + 1)) % 2 == 1) = .ready x r'
        have : ((k + (0 + 1)) % 2 == 1) = true := by simp; omega
        rw [this]
        exact hp _
    · refine ⟨0, ?_⟩
      show ∃ x r', asrc.withInfo.poll (r, i) ((k + 0) % 2 == 1) = .ready x r'
      have : ((k + 0) % 2 == 1) = true := by simp; omega
      rw [this]
      exact hp _
  · intro hf
    obtain ⟨n, hn⟩ := hf ([], []) 0
    have : ∀ n f, ¬ ReadyAfter asrc.withInfo n f (fun _ => false) := by
      intro n
      induction n with
      | zero => rintro f ⟨x, r, h⟩; simp [AsyncReader.withInfo, asrc] at h
      | succ n ih => rintro f ⟨f', _, h⟩; exact ih f' h
    exact this n _ hn

/-! ## Writing -/

/-- The events of a list. -/
def listZ : Zer (List Event) Nat where
  step := fun s h =>
    match s with
    | [] => (.done, h)
    | e :: es => (.emit e es, h)

/-- The text of an event (a stand-in for the one of `quick_xml`). -/
def bytes : Event → Str
  | .start t => ['<'] ++ t.name ++ ['>']
  | .end_ n => ['<', '/'] ++ n ++ ['>']
  | .text s => s
  | _ => []

/-- The output is the text written; every poll finds room for some characters, or an error. -/
def sinkA : AsyncWriter Str (Str × Str) (Option Nat) Nat where
  begin := fun o ev => (o, bytes ev)
  poll := fun f w =>
    match w with
    | none => .ready (.error 3) f.1
    | some n => if f.2.length ≤ n then .ready (.ok ()) (f.1 ++ f.2) else .pending (f.1 ++ f.2.take n, f.2.drop n)
  sink := Prod.fst

/-- Non-vacuity of `C74_written_is_prefix`. -/
theorem sinkA_appends : Appends bytes sinkA id (fun o ev f => ∃ p, bytes ev = p ++ f.2 ∧ f.1 = o ++ p) where
  begin := fun o ev => ⟨[], rfl, by simp [sinkA]⟩
  pending := by
    rintro o ev f w f' ⟨p, h1, h2⟩ h
    cases w with
    | none => cases h
    | some n =>
      simp only [sinkA] at h
      split at h
      · cases h
      · cases h
        exact ⟨p ++ f.2.take n, by simp [h1], by simp [h2]⟩
  part := by
    rintro o ev f ⟨p, h1, h2⟩
    exact ⟨p, ⟨f.2, h1.symm⟩, h2⟩
  failed := by
    rintro o ev f w err o' ⟨p, h1, h2⟩ h
    cases w with
    | none => cases h; exact ⟨p, ⟨f.2, h1.symm⟩, h2⟩
    | some n =>
      simp only [sinkA] at h
      split at h <;> cases h
  written := by
    rintro o ev f w o' ⟨p, h1, h2⟩ h
    cases w with
    | none => cases h
    | some n =>
      simp only [sinkA] at h
      split at h
      · cases h
        simp [h1, h2]
      · cases h

def doc : List Event := [.start (tag 'a'), .text ['x', 'y'], .end_ ['a']]

theorem doc_gives (h : SerHelper) : Gives listZ doc h doc :=
  Or.inl ⟨h, .emit rfl (.emit rfl (.emit rfl (.done rfl)))⟩

/-- `<a>xy</a>` in small pieces: a point in the middle of a tag, and the end. -/
example (h : SerHelper) :
    (∃ t, WReaches listZ sinkA (.running doc h []) [some 2] t ∧ t.output sinkA = ['<', 'a']) ∧
    WReaches listZ sinkA (.running doc h []) [some 2, some 9, some 2, some 9]
      (.finished (.ok ()) ['<', 'a', '>', 'x', 'y', '<', '/', 'a', '>']) ∧
    docText bytes doc = ['<', 'a', '>', 'x', 'y', '<', '/', 'a', '>'] := by
  refine ⟨⟨_, .step (.emit rfl) (.step (.pending rfl) .refl), rfl⟩, ?_, rfl⟩
  exact .step (ws := []) (.emit rfl) (.step (ws := [some 2]) (.pending rfl) (.step (ws := [some 9]) (.written rfl)
    (.step (ws := []) (.emit rfl) (.step (ws := [some 2]) (.written rfl)
    (.step (ws := []) (.emit rfl) (.step (ws := [some 9]) (.written rfl) (.step (ws := []) (.done rfl) .refl)))))))

/-- The synchronous writer for the same output, one that never fails. -/
def sinkS : SyncWriter Str Nat := ⟨fun o ev => (.ok (), o ++ bytes ev)⟩

/-- Non-vacuity of `C74_sync_written_is_prefix`: an output with room for five characters. -/
def full : SyncWriter Str Nat :=
  ⟨fun o ev => if (o ++ bytes ev).length ≤ 5 then (.ok (), o ++ bytes ev) else (.error 3, (o ++ bytes ev).take 5)⟩

example (h : SerHelper) : SyncWrite listZ full doc h [] (.error 3) ['<', 'a', '>', 'x', 'y'] ∧
    (∀ o ev o', full.write o ev = (.ok (), o') → o' = o ++ bytes ev) :=
  ⟨.write rfl rfl (.write rfl rfl (.writeErr rfl rfl)), by
    intro o ev o' h
    simp only [full] at h
    split at h <;> cases h
    rfl⟩

/-- `sinkA`, without errors. -/
def sinkB : AsyncWriter Str (Str × Str) Nat Nat where
  begin := sinkA.begin
  poll := fun f n => sinkA.poll f (some n)
  sink := Prod.fst

/-- Non-vacuity of `C73_async_write_equals_sync`. -/
example : SameWrites sinkS sinkB (fun o ev f => ∃ p, bytes ev = p ++ f.2 ∧ f.1 = o ++ p) where
  begin := fun o ev => ⟨[], rfl, by simp [sinkB, sinkA]⟩
  pending := fun o ev f w f' hd h => sinkA_appends.pending o ev f (some w) f' hd h
  ready := by
    rintro o ev f w res o' ⟨p, h1, h2⟩ h
    simp only [sinkB, sinkA] at h
    split at h
    · cases h
      simp [sinkS, h1, h2]
    · cases h

end Verif.Rt.AsyncEx
