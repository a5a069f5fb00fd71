import Verif.Runtime.Driver
import Verif.Runtime.ErrorPath
import Verif.Runtime.Stepwise

/-!
# Asynchronous reading and writing (C73, C74)

`deserialize_async` and `serialize_async` are `async fn`s: state machines with one suspension point, the `.await` on the
reader or the writer. A schedule is the list of what each poll of that inner future finds (`W`, arbitrary: bytes that have
arrived, room in a buffer, a spurious wake-up). The compiler's translation of `async fn` is trusted. The readers and writers
of `quick_xml` and `tokio` are parameters; what is assumed of them is `SameReads` and `SameWrites`.
-/

namespace Verif.Rt

/-! ## Errors and readers -/

/-- `Error`, quick_xml/error.rs:16-30. -/
structure RErr (K : Type) where
  kind : K
  position : Option Nat := none
  elements : Option (List Str) := none
deriving DecidableEq

/-- `Error::with_pos`, error.rs:272-276. -/
def RErr.withPos {K : Type} (e : RErr K) (p : Nat) : RErr K := { e with position := some p }

/-- `Error::with_error_info`, error.rs:278-282. -/
def RErr.withInfo {K : Type} (e : RErr K) (info : List Str) : RErr K := { e with elements := some info }

/-- `XmlReader` and `XmlReaderSync`, reader/mod.rs:22-38. `R` is the state of the reader. -/
structure SyncReader (R K : Type) where
  read : R → Except (RErr K) Event × R
  extend : R → RErr K → RErr K

/-- `Poll` of a reading future; the reader is free again if it is ready. -/
inductive Polled (F R T : Type) where
  | pending (f : F)
  | ready (t : T) (r : R)

/-- `XmlReader` and `XmlReaderAsync`, reader/mod.rs:22-31 and 40-50. `F` is the state of the future. -/
structure AsyncReader (R F W K : Type) where
  begin : R → F
  poll : F → W → Polled F R (Except (RErr K) Event)
  extend : R → RErr K → RErr K

section
variable {R F W K H V : Type}

/-- `SliceReader`, slice_reader.rs:29-52, `IoReader`, io_reader.rs:25-43: the position is added to errors. `read` is the
reader of `quick_xml`, `pos` its `buffer_position`. -/
def plainReader (read : R → Except K Event × R) (pos : R → Nat) : SyncReader R K where
  read := fun r =>
    match read r with
    | (.ok e, r) => (.ok e, r)
    | (.error k, r) => (.error { kind := k }, r)
  extend := fun r e => e.withPos (pos r)

/-- `read_event_async` of `SliceReader`, slice_reader.rs:42-52: a future that is ready at once. -/
def sliceAsync (W : Type) (S : SyncReader R K) : AsyncReader R (Except (RErr K) Event × R) W K where
  begin := S.read
  poll := fun f _ => .ready f.1 f.2
  extend := S.extend

/-- `ErrorReader` as `XmlReaderSync`, error_reader.rs:34-56. -/
def SyncReader.withInfo (S : SyncReader R K) : SyncReader (R × List Str) K where
  read := fun r =>
    match S.read r.1 with
    | (.ok e, r') => (.ok e, (r', ErrorInfo.update r.2 e))
    | (.error e, r') => (.error e, (r', r.2))
  extend := fun r e => (S.extend r.1 e).withInfo r.2

/-- `ErrorReader` as `XmlReaderAsync`, error_reader.rs:34-44 and 58-126. -/
def AsyncReader.withInfo (A : AsyncReader R F W K) : AsyncReader (R × List Str) (F × List Str) W K where
  begin := fun r => (A.begin r.1, r.2)
  poll := fun f w =>
    match A.poll f.1 w with
    | .pending g => .pending (g, f.2)
    | .ready (.ok e) r => .ready (.ok e) (r, ErrorInfo.update f.2 e)
    | .ready (.error e) r => .ready (.error (e.withInfo f.2)) (r, f.2)
  extend := fun r e => (A.extend r.1 e).withInfo r.2

/-! ## `deserialize` and `deserialize_async` -/

/-- The loop of `deserialize_sync`, deserialize.rs:1356-1364: the result, and the reader after it. -/
inductive SyncRun (S : SyncReader R K) (env : Env H (RErr K)) (d : Deser H (RErr K) V) :
    R → Drv H d.S → Except (RErr K) V → R → Prop
  | readErr {r st e r'} (hr : S.read r = (.error e, r')) : SyncRun S env d r st (.error e) r'
  | fail {r st ev r' e} (hr : S.read r = (.ok ev, r')) (hh : st.handleEvent env d ev = .error e) :
      SyncRun S env d r st (.error e) r'
  | done {r st ev r' v st'} (hr : S.read r = (.ok ev, r')) (hh : st.handleEvent env d ev = .ok (some v, st')) :
      SyncRun S env d r st (.ok v) r'
  | step {r st ev r' st' res r''} (hr : S.read r = (.ok ev, r')) (hh : st.handleEvent env d ev = .ok (none, st'))
      (rest : SyncRun S env d r' st' res r'') : SyncRun S env d r st res r''

/-- `map_err(|error| reader.extend_error(error))`, deserialize.rs:369-373 and 419-424. -/
def extendErr (extend : R → RErr K → RErr K) (r : R) : Except (RErr K) V → Except (RErr K) V
  | .ok v => .ok v
  | .error e => .error (extend r e)

/-- `T::deserialize(&mut reader)`, deserialize.rs:369-373, returns `res` and leaves the reader in the state `r'`. -/
def Deserializes (S : SyncReader R K) (env : Env H (RErr K)) (d : Deser H (RErr K) V) (h : H) (r : R)
    (res : Except (RErr K) V) (r' : R) : Prop :=
  ∃ x, SyncRun S env d r { helper := h } x r' ∧ res = extendErr S.extend r' x

/-- The suspended `deserialize_async`: waiting for the reading future; or finished. -/
inductive Task (F R H S K V : Type) where
  | reading (f : F) (st : Drv H S)
  | finished (res : Except (RErr K) V) (r : R)

/-- What follows the `.await` in the loop of `deserialize_async`, deserialize.rs:1372-1381. -/
def AsyncReader.proceed (A : AsyncReader R F W K) (env : Env H (RErr K)) (d : Deser H (RErr K) V) (st : Drv H d.S)
    (x : Except (RErr K) Event) (r : R) : Task F R H d.S K V :=
  match x with
  | .error e => .finished (.error (A.extend r e)) r
  | .ok ev =>
    match st.handleEvent env d ev with
    | .error e => .finished (.error (A.extend r e)) r
    | .ok (some v, _) => .finished (.ok v) r
    | .ok (none, st) => .reading (A.begin r) st

/-- One poll of the reading future. -/
def AsyncReader.poll1 (A : AsyncReader R F W K) (env : Env H (RErr K)) (d : Deser H (RErr K) V) (w : W) :
    Task F R H d.S K V → Task F R H d.S K V
  | .reading f st =>
    match A.poll f w with
    | .pending f => .reading f st
    | .ready x r => A.proceed env d st x r
  | .finished res r => .finished res r

/-- Polled as the schedule says. -/
def AsyncReader.polls (A : AsyncReader R F W K) (env : Env H (RErr K)) (d : Deser H (RErr K) V) :
    List W → Task F R H d.S K V → Task F R H d.S K V
  | [], t => t
  | w :: ws, t => AsyncReader.polls A env d ws (A.poll1 env d w t)

/-- `T::deserialize_async(&mut reader)`, deserialize.rs:415-425, after it has been polled as the schedule says. -/
def AsyncReader.run (A : AsyncReader R F W K) (env : Env H (RErr K)) (d : Deser H (RErr K) V) (h : H) (r : R)
    (ws : List W) : Task F R H d.S K V :=
  A.polls env d ws (.reading (A.begin r) { helper := h })

/-! ## Specification -/

/-- The two variants of a reader agree: however often the future is polled, and whatever the polls find, if it is ready then
with the event, or an error for the same reason, that the synchronous reader returns, and with the reader in the same state.
`Doing r f`: the future `f` was created from the reader in state `r`. -/
structure SameReads (S : SyncReader R K) (A : AsyncReader R F W K) (Doing : R → F → Prop) : Prop where
  begin : ∀ r, Doing r (A.begin r)
  pending : ∀ r f w f', Doing r f → A.poll f w = .pending f' → Doing r f'
  event : ∀ r f w e r', Doing r f → A.poll f w = .ready (.ok e) r' → S.read r = (.ok e, r')
  error : ∀ r f w e r', Doing r f → A.poll f w = .ready (.error e) r' →
    ∃ e', S.read r = (.error e', r') ∧ S.extend r' e' = A.extend r' e
  extend : ∀ r e, S.extend r e = A.extend r e

/-- Polled with `ws 0`, `ws 1`, …, the future is pending `n` times and ready then. -/
def ReadyAfter (A : AsyncReader R F W K) : Nat → F → (Nat → W) → Prop
  | 0, f, ws => ∃ x r, A.poll f (ws 0) = .ready x r
  | n + 1, f, ws => ∃ f', A.poll f (ws 0) = .pending f' ∧ ReadyAfter A n f' fun i => ws (i + 1)

/-- On this schedule, no reading future is pending for ever, whenever it is created. -/
def Fair (A : AsyncReader R F W K) (ws : Nat → W) : Prop :=
  ∀ r k, ∃ n, ReadyAfter A n (A.begin r) fun i => ws (k + i)

/-- The path of elements given last is the one that counts. -/
def Overwrites (A : R → RErr K → RErr K) : Prop :=
  ∀ r (e : RErr K) i j, (A r (e.withInfo i)).withInfo j = (A r e).withInfo j

/-! ## Theorems -/

/-- The slice reader agrees with itself. -/
theorem C73_slice_reader_agrees (S : SyncReader R K) : SameReads S (sliceAsync W S) (fun r f => f = S.read r) where
  begin := fun _ => rfl
  pending := by intro r f w f' _ h; simp [sliceAsync] at h
  event := by
    intro r f w e r' hf h
    simp only [sliceAsync, Polled.ready.injEq] at h
    rw [← hf, ← h.1, ← h.2]
  error := by
    intro r f w e r' hf h
    simp only [sliceAsync, Polled.ready.injEq] at h
    exact ⟨e, by rw [← hf, ← h.1, ← h.2], rfl⟩
  extend := fun _ _ => rfl

/-- Adding the path of elements to the errors of a reader keeps the agreement. -/
theorem C73_error_reader_agrees (S : SyncReader R K) (A : AsyncReader R F W K) {Doing : R → F → Prop}
    (ag : SameReads S A Doing) (ov : Overwrites A.extend) :
    SameReads S.withInfo A.withInfo (fun r f => Doing r.1 f.1 ∧ r.2 = f.2) where
  begin := fun r => ⟨ag.begin r.1, rfl⟩
  pending := by
    intro r f w f' hd h
    simp only [AsyncReader.withInfo] at h
    split at h
    · next g hg => cases h; exact ⟨ag.pending _ _ _ _ hd.1 hg, hd.2⟩
    · cases h
    · cases h
  event := by
    intro r f w e r' hd h
    simp only [AsyncReader.withInfo] at h
    split at h
    · cases h
    · next hg =>
      cases h
      simp only [SyncReader.withInfo, ag.event _ _ _ _ _ hd.1 hg, hd.2]
    · cases h
  error := by
    intro r f w e r' hd h
    simp only [AsyncReader.withInfo] at h
    split at h
    · cases h
    · cases h
    · next e0 _ hg =>
      cases h
      obtain ⟨e', hr, he⟩ := ag.error _ _ _ _ _ hd.1 hg
      refine ⟨e', ?_, ?_⟩
      · simp only [SyncReader.withInfo, hr, hd.2]
      · show (S.extend _ e').withInfo _ = (A.extend _ (e0.withInfo _)).withInfo _
        rw [he, ov]
  extend := by
    intro r e
    show (S.extend _ _).withInfo _ = (A.extend _ _).withInfo _
    rw [ag.extend]

/-- The synchronous run has one result only. -/
theorem SyncRun.unique {S : SyncReader R K} {env : Env H (RErr K)} {d : Deser H (RErr K) V} {r : R} {st : Drv H d.S}
    {x y : Except (RErr K) V} {r1 r2 : R} (a : SyncRun S env d r st x r1) (b : SyncRun S env d r st y r2) :
    x = y ∧ r1 = r2 := by
  induction a generalizing y r2 with
  | readErr hr =>
    cases b with
    | readErr hr' => rw [hr] at hr'; cases hr'; exact ⟨rfl, rfl⟩
    | fail hr' _ => rw [hr] at hr'; cases hr'
    | done hr' _ => rw [hr] at hr'; cases hr'
    | step hr' _ _ => rw [hr] at hr'; cases hr'
  | fail hr hh =>
    cases b with
    | readErr hr' => rw [hr] at hr'; cases hr'
    | fail hr' hh' => rw [hr] at hr'; cases hr'; rw [hh] at hh'; cases hh'; exact ⟨rfl, rfl⟩
    | done hr' hh' => rw [hr] at hr'; cases hr'; rw [hh] at hh'; cases hh'
    | step hr' hh' _ => rw [hr] at hr'; cases hr'; rw [hh] at hh'; cases hh'
  | done hr hh =>
    cases b with
    | readErr hr' => rw [hr] at hr'; cases hr'
    | fail hr' hh' => rw [hr] at hr'; cases hr'; rw [hh] at hh'; cases hh'
    | done hr' hh' => rw [hr] at hr'; cases hr'; rw [hh] at hh'; cases hh'; exact ⟨rfl, rfl⟩
    | step hr' hh' _ => rw [hr] at hr'; cases hr'; rw [hh] at hh'; cases hh'
  | step hr hh _ ih =>
    cases b with
    | readErr hr' => rw [hr] at hr'; cases hr'
    | fail hr' hh' => rw [hr] at hr'; cases hr'; rw [hh] at hh'; cases hh'
    | done hr' hh' => rw [hr] at hr'; cases hr'; rw [hh] at hh'; cases hh'
    | step hr' hh' rest => rw [hr] at hr'; cases hr'; rw [hh] at hh'; cases hh'; exact ih rest

theorem poll_finished (A : AsyncReader R F W K) (env : Env H (RErr K)) (d : Deser H (RErr K) V) (ws : List W)
    (res : Except (RErr K) V) (r : R) :
    A.polls env d ws (.finished res r) = .finished res r := by
  induction ws with
  | nil => rfl
  | cons w ws ih => exact ih

theorem polls_append (A : AsyncReader R F W K) (env : Env H (RErr K)) (d : Deser H (RErr K) V) (ws ws' : List W)
    (t : Task F R H d.S K V) : A.polls env d (ws ++ ws') t = A.polls env d ws' (A.polls env d ws t) := by
  induction ws generalizing t with
  | nil => rfl
  | cons w ws ih => exact ih _

/-- **C73.** Whatever the schedule: if `deserialize_async` returns, then it returns what `deserialize` returns, the value or
the error with its position and its path of elements, and leaves the reader in the same state. -/
theorem C73_async_read_equals_sync (S : SyncReader R K) (A : AsyncReader R F W K) {Doing : R → F → Prop}
    (ag : SameReads S A Doing) (env : Env H (RErr K)) (d : Deser H (RErr K) V) (h : H) (r : R) (ws : List W)
    (res : Except (RErr K) V) (r' : R) (hrun : A.run env d h r ws = .finished res r') :
    Deserializes S env d h r res r' := by
  have main : ∀ (ws : List W) f r st, Doing r f →
      A.polls env d ws (.reading f st) = .finished res r' →
      ∃ x, SyncRun S env d r st x r' ∧ res = extendErr S.extend r' x := by
    intro ws
    induction ws with
    | nil => intro f r st _ h; cases h
    | cons w ws ih =>
      intro f r st hd h
      rw [AsyncReader.polls] at h
      cases hp : A.poll f w with
      | pending f' =>
        simp only [AsyncReader.poll1, hp] at h
        exact ih f' r st (ag.pending _ _ _ _ hd hp) h
      | ready x r1 =>
        cases x with
        | error e =>
          simp only [AsyncReader.poll1, hp, AsyncReader.proceed] at h
          rw [poll_finished] at h
          cases h
          obtain ⟨e', hr, he⟩ := ag.error _ _ _ _ _ hd hp
          exact ⟨_, .readErr hr, by simp only [extendErr, he]⟩
        | ok ev =>
          have hr := ag.event _ _ _ _ _ hd hp
          cases hh : st.handleEvent env d ev with
          | error e =>
            simp only [AsyncReader.poll1, hp, AsyncReader.proceed, hh] at h
            rw [poll_finished] at h
            cases h
            exact ⟨_, .fail hr hh, by simp only [extendErr, ag.extend]⟩
          | ok out =>
            obtain ⟨v, st'⟩ := out
            cases v with
            | some v =>
              simp only [AsyncReader.poll1, hp, AsyncReader.proceed, hh] at h
              rw [poll_finished] at h
              cases h
              exact ⟨_, .done hr hh, rfl⟩
            | none =>
              simp only [AsyncReader.poll1, hp, AsyncReader.proceed, hh] at h
              obtain ⟨x, run, hx⟩ := ih _ r1 st' (ag.begin r1) h
              exact ⟨x, .step hr hh run, hx⟩
  exact main ws _ r _ (ag.begin r) hrun

/-- **C73.** If `deserialize` returns, then `deserialize_async` returns the same after finitely many polls, on every schedule on
which no reading future is pending for ever. -/
theorem C73_async_read_returns (S : SyncReader R K) (A : AsyncReader R F W K) {Doing : R → F → Prop}
    (ag : SameReads S A Doing) (env : Env H (RErr K)) (d : Deser H (RErr K) V) (h : H) (r : R)
    (res : Except (RErr K) V) (r' : R) (hs : Deserializes S env d h r res r') (ws : Nat → W) (fair : Fair A ws) :
    ∃ n, A.run env d h r ((List.range n).map ws) = .finished res r' := by
  obtain ⟨x, run, rfl⟩ := hs
  -- a reading future becomes ready
  have wait : ∀ m f (ws : Nat → W) st, ReadyAfter A m f ws → ∃ x r1 f' w, A.poll f' w = .ready x r1 ∧
      (∀ r, Doing r f → Doing r f') ∧
      A.polls env d ((List.range (m + 1)).map ws) (.reading f st) = A.proceed env d st x r1 := by
    intro m
    induction m with
    | zero =>
      rintro f ws st ⟨x, r1, hp⟩
      exact ⟨x, r1, f, ws 0, hp, fun _ h => h, by simp [List.range_succ, AsyncReader.polls, AsyncReader.poll1, hp]⟩
    | succ m ih =>
      rintro f ws st ⟨f', hp, hr⟩
      obtain ⟨x, r1, g, w, hg, hdo, hn⟩ := ih f' (fun i => ws (i + 1)) st hr
      refine ⟨x, r1, g, w, hg, fun r hd => hdo r (ag.pending _ _ _ _ hd hp), ?_⟩
      rw [List.range_succ_eq_map, List.map_cons, AsyncReader.polls, List.map_map]
      simp only [AsyncReader.poll1, hp]
      exact hn
  have main : ∀ r st x r', SyncRun S env d r st x r' → ∀ k,
      ∃ n, A.polls env d ((List.range n).map fun i => ws (k + i)) (.reading (A.begin r) st)
        = .finished (extendErr S.extend r' x) r' := by
    intro r st x r' run
    induction run with
    | @readErr r st e r' hr =>
      intro k
      obtain ⟨m, hm⟩ := fair r k
      obtain ⟨x, r1, f', w, hp, hdo, hn⟩ := wait m _ _ st hm
      refine ⟨m + 1, ?_⟩
      rw [hn]
      cases x with
      | ok ev => have := ag.event _ _ _ _ _ (hdo _ (ag.begin r)) hp; rw [hr] at this; cases this
      | error e0 =>
        obtain ⟨e', hr', he⟩ := ag.error _ _ _ _ _ (hdo _ (ag.begin r)) hp
        rw [hr] at hr'
        cases hr'
        simp only [AsyncReader.proceed, extendErr, he]
    | @fail r st ev r' e hr hh =>
      intro k
      obtain ⟨m, hm⟩ := fair r k
      obtain ⟨x, r1, f', w, hp, hdo, hn⟩ := wait m _ _ st hm
      refine ⟨m + 1, ?_⟩
      rw [hn]
      cases x with
      | error e0 => obtain ⟨e', hr', _⟩ := ag.error _ _ _ _ _ (hdo _ (ag.begin r)) hp; rw [hr] at hr'; cases hr'
      | ok ev =>
        have := ag.event _ _ _ _ _ (hdo _ (ag.begin r)) hp
        rw [hr] at this
        cases this
        simp only [AsyncReader.proceed, hh, extendErr, ag.extend]
    | @done r st ev r' v st' hr hh =>
      intro k
      obtain ⟨m, hm⟩ := fair r k
      obtain ⟨x, r1, f', w, hp, hdo, hn⟩ := wait m _ _ st hm
      refine ⟨m + 1, ?_⟩
      rw [hn]
      cases x with
      | error e0 => obtain ⟨e', hr', _⟩ := ag.error _ _ _ _ _ (hdo _ (ag.begin r)) hp; rw [hr] at hr'; cases hr'
      | ok ev =>
        have := ag.event _ _ _ _ _ (hdo _ (ag.begin r)) hp
        rw [hr] at this
        cases this
        simp only [AsyncReader.proceed, hh, extendErr]
    | @step r st ev r' st' res r'' hr hh _ ih =>
      intro k
      obtain ⟨m, hm⟩ := fair r k
      obtain ⟨x, r1, f', w, hp, hdo, hn⟩ := wait m _ _ st hm
      cases x with
      | error e0 => obtain ⟨e', hr', _⟩ := ag.error _ _ _ _ _ (hdo _ (ag.begin r)) hp; rw [hr] at hr'; cases hr'
      | ok ev =>
        have := ag.event _ _ _ _ _ (hdo _ (ag.begin r)) hp
        rw [hr] at this
        cases this
        simp only [AsyncReader.proceed, hh] at hn
        obtain ⟨n', hn'⟩ := ih (k + (m + 1))
        refine ⟨m + 1 + n', ?_⟩
        rw [List.range_add, List.map_append, polls_append, hn, List.map_map]
        simp only [Nat.add_assoc] at hn'
        simpa [Function.comp_def, Nat.add_assoc] using hn'
  obtain ⟨n, hn⟩ := main _ _ _ _ run 0
  simp only [Nat.zero_add] at hn
  exact ⟨n, hn⟩

end

/-! ## `serialize` and `serialize_async` -/

section
variable {S O F W E : Type}

/-- `quick_xml::Writer` over `std::io::Write`: `O` is the state of the output. -/
structure SyncWriter (O E : Type) where
  write : O → Event → Except E Unit × O

/-- `quick_xml::Writer` over `tokio::io::AsyncWrite`. -/
structure AsyncWriter (O F W E : Type) where
  begin : O → Event → F
  poll : F → W → Polled F O (Except E Unit)
  /-- the output while the future exists -/
  sink : F → O

/-- `serialize_sync`, serialize.rs:983-992. Errors of the serializer and of the writer are of one type here; the conversion
of the latter, 987 and 1005, gives the same error in both variants. -/
inductive SyncWrite (z : Zer S E) (P : SyncWriter O E) : S → SerHelper → O → Except E Unit → O → Prop
  | done {s h h' o} (hn : z.step s h = (.done, h')) : SyncWrite z P s h o (.ok ()) o
  | fail {s h err h' o} (hn : z.step s h = (.fail err, h')) : SyncWrite z P s h o (.error err) o
  | again {s h s' h' o res o'} (hn : z.step s h = (.again s', h')) (rest : SyncWrite z P s' h' o res o') :
      SyncWrite z P s h o res o'
  | writeErr {s h ev s' h' o err o'} (hn : z.step s h = (.emit ev s', h')) (hw : P.write o ev = (.error err, o')) :
      SyncWrite z P s h o (.error err) o'
  | write {s h ev s' h' o o1 res o'} (hn : z.step s h = (.emit ev s', h')) (hw : P.write o ev = (.ok (), o1))
      (rest : SyncWrite z P s' h' o1 res o') : SyncWrite z P s h o res o'

/-- `serialize_async`, serialize.rs:1000-1010: running, suspended, or finished. -/
inductive WTask (S F O E : Type) where
  | running (s : S) (h : SerHelper) (o : O)
  | writing (f : F) (s : S) (h : SerHelper)
  | finished (res : Except E Unit) (o : O)

/-- A step of `serialize_async`, with what the poll finds if there is one. -/
inductive WStep (z : Zer S E) (A : AsyncWriter O F W E) : WTask S F O E → List W → WTask S F O E → Prop
  | done {s h h' o} (hn : z.step s h = (.done, h')) : WStep z A (.running s h o) [] (.finished (.ok ()) o)
  | fail {s h err h' o} (hn : z.step s h = (.fail err, h')) : WStep z A (.running s h o) [] (.finished (.error err) o)
  | again {s h s' h' o} (hn : z.step s h = (.again s', h')) : WStep z A (.running s h o) [] (.running s' h' o)
  | emit {s h ev s' h' o} (hn : z.step s h = (.emit ev s', h')) :
      WStep z A (.running s h o) [] (.writing (A.begin o ev) s' h')
  | pending {f w f' s h} (hp : A.poll f w = .pending f') : WStep z A (.writing f s h) [w] (.writing f' s h)
  | writeErr {f w err o s h} (hp : A.poll f w = .ready (.error err) o) :
      WStep z A (.writing f s h) [w] (.finished (.error err) o)
  | written {f w o s h} (hp : A.poll f w = .ready (.ok ()) o) : WStep z A (.writing f s h) [w] (.running s h o)

/-- Any number of steps; the list is the schedule. -/
inductive WReaches (z : Zer S E) (A : AsyncWriter O F W E) : WTask S F O E → List W → WTask S F O E → Prop
  | refl {t} : WReaches z A t [] t
  | step {t ws t' ws' t''} (h : WStep z A t ws t') (rest : WReaches z A t' ws' t'') : WReaches z A t (ws ++ ws') t''

/-- The two variants of a writer agree. `Doing o ev f`: the future `f` writes `ev` to an output that was in state `o`. -/
structure SameWrites (P : SyncWriter O E) (A : AsyncWriter O F W E) (Doing : O → Event → F → Prop) : Prop where
  begin : ∀ o ev, Doing o ev (A.begin o ev)
  pending : ∀ o ev f w f', Doing o ev f → A.poll f w = .pending f' → Doing o ev f'
  ready : ∀ o ev f w res o', Doing o ev f → A.poll f w = .ready res o' → P.write o ev = (res, o')

/-- **C73.** Whatever the schedule: if `serialize_async` returns, then `serialize` returns the same, and the output is in the
same state. -/
theorem C73_async_write_equals_sync (z : Zer S E) (P : SyncWriter O E) (A : AsyncWriter O F W E)
    {Doing : O → Event → F → Prop} (ag : SameWrites P A Doing) (s : S) (h : SerHelper) (o : O) (ws : List W)
    (res : Except E Unit) (o' : O) (hr : WReaches z A (.running s h o) ws (.finished res o')) :
    SyncWrite z P s h o res o' := by
  have main : ∀ t t' ws, WReaches z A t ws t' → t' = .finished res o' →
      (∀ s h o, t = .running s h o → SyncWrite z P s h o res o') ∧
      (∀ f s h o ev, t = .writing f s h → Doing o ev f → ∃ r o1, P.write o ev = (r, o1) ∧
        ((∃ err, r = .error err ∧ res = .error err ∧ o' = o1) ∨ (r = .ok () ∧ SyncWrite z P s h o1 res o'))) ∧
      (∀ r o1, t = .finished r o1 → r = res ∧ o1 = o') := by
    intro t t' ws hr
    induction hr with
    | refl =>
      rintro rfl
      refine ⟨by rintro _ _ _ ⟨⟩, by rintro _ _ _ _ _ ⟨⟩, ?_⟩
      rintro r o1 h1
      cases h1
      exact ⟨rfl, rfl⟩
    | step st _ ih =>
      intro ht
      obtain ⟨ih1, ih2, ih3⟩ := ih ht
      cases st with
      | done hn =>
        obtain ⟨rfl, rfl⟩ := ih3 _ _ rfl
        exact ⟨fun _ _ _ h => by cases h; exact .done hn, (by intro _ _ _ _ _ h; cases h), (by intro _ _ h; cases h)⟩
      | fail hn =>
        obtain ⟨rfl, rfl⟩ := ih3 _ _ rfl
        exact ⟨fun _ _ _ h => by cases h; exact .fail hn, (by intro _ _ _ _ _ h; cases h), (by intro _ _ h; cases h)⟩
      | again hn =>
        exact ⟨fun _ _ _ h => by cases h; exact .again hn (ih1 _ _ _ rfl), (by intro _ _ _ _ _ h; cases h),
          (by intro _ _ h; cases h)⟩
      | emit hn =>
        refine ⟨fun _ _ _ h => ?_, (by intro _ _ _ _ _ h; cases h), (by intro _ _ h; cases h)⟩
        cases h
        obtain ⟨r, o1, hw, hcase⟩ := ih2 _ _ _ _ _ rfl (ag.begin _ _)
        rcases hcase with ⟨err, rfl, rfl, rfl⟩ | ⟨rfl, hs⟩
        · exact .writeErr hn hw
        · exact .write hn hw hs
      | pending hp =>
        refine ⟨(by intro _ _ _ h; cases h), fun _ _ _ _ _ h hd => ?_, (by intro _ _ h; cases h)⟩
        cases h
        exact ih2 _ _ _ _ _ rfl (ag.pending _ _ _ _ _ hd hp)
      | writeErr hp =>
        obtain ⟨h1, h2⟩ := ih3 _ _ rfl
        refine ⟨(by intro _ _ _ h; cases h), fun _ _ _ _ _ h hd => ?_, (by intro _ _ h; cases h)⟩
        cases h
        exact ⟨_, _, ag.ready _ _ _ _ _ _ hd hp, Or.inl ⟨_, rfl, h1.symm, h2.symm⟩⟩
      | written hp =>
        refine ⟨(by intro _ _ _ h; cases h), fun _ _ _ _ _ h hd => ?_, (by intro _ _ h; cases h)⟩
        cases h
        exact ⟨_, _, ag.ready _ _ _ _ _ _ hd hp, Or.inr ⟨rfl, ih1 _ _ _ rfl⟩⟩
  exact (main _ _ _ hr rfl).1 _ _ _ rfl

/-! ## What has been written at any time -/

/-- The text written so far (`text`) only grows by the text of the event (`bytes`): by all of it if writing it succeeds, by
a part of it while it is being written or if writing it fails. -/
structure Appends (bytes : Event → Str) (A : AsyncWriter O F W E) (text : O → Str) (Doing : O → Event → F → Prop) :
    Prop where
  begin : ∀ o ev, Doing o ev (A.begin o ev)
  pending : ∀ o ev f w f', Doing o ev f → A.poll f w = .pending f' → Doing o ev f'
  part : ∀ o ev f, Doing o ev f → ∃ p, p <+: bytes ev ∧ text (A.sink f) = text o ++ p
  failed : ∀ o ev f w err o', Doing o ev f → A.poll f w = .ready (.error err) o' →
    ∃ p, p <+: bytes ev ∧ text o' = text o ++ p
  written : ∀ o ev f w o', Doing o ev f → A.poll f w = .ready (.ok ()) o' → text o' = text o ++ bytes ev

/-- The output at a point of the run. -/
def WTask.output (A : AsyncWriter O F W E) : WTask S F O E → O
  | .running _ _ o => o
  | .writing f _ _ => A.sink f
  | .finished _ o => o

/-- The text of a document. -/
def docText (bytes : Event → Str) (evs : List Event) : Str := evs.flatMap bytes

/-- The events that the serializer gives from here on, whether it ends or fails after them. -/
def Gives (z : Zer S E) (s : S) (h : SerHelper) (evs : List Event) : Prop :=
  (∃ h', z.Emits s h evs h') ∨ z.Fails s h evs

theorem Gives.again {z : Zer S E} {s s' : S} {h h' : SerHelper} {evs : List Event} (g : Gives z s h evs)
    (hn : z.step s h = (.again s', h')) : Gives z s' h' evs := by
  rcases g with ⟨h1, g⟩ | g
  · cases g with
    | done hn' => rw [hn] at hn'; cases hn'
    | emit hn' _ => rw [hn] at hn'; cases hn'
    | again hn' r => rw [hn] at hn'; cases hn'; exact Or.inl ⟨_, r⟩
  · cases g with
    | fail hn' => rw [hn] at hn'; cases hn'
    | emit hn' _ => rw [hn] at hn'; cases hn'
    | again hn' r => rw [hn] at hn'; cases hn'; exact Or.inr r

theorem Gives.emit {z : Zer S E} {s s' : S} {h h' : SerHelper} {ev : Event} {evs : List Event} (g : Gives z s h evs)
    (hn : z.step s h = (.emit ev s', h')) : ∃ evs', evs = ev :: evs' ∧ Gives z s' h' evs' := by
  rcases g with ⟨h1, g⟩ | g
  · cases g with
    | done hn' => rw [hn] at hn'; cases hn'
    | emit hn' r => rw [hn] at hn'; cases hn'; exact ⟨_, rfl, Or.inl ⟨_, r⟩⟩
    | again hn' _ => rw [hn] at hn'; cases hn'
  · cases g with
    | fail hn' => rw [hn] at hn'; cases hn'
    | emit hn' r => rw [hn] at hn'; cases hn'; exact ⟨_, rfl, Or.inr r⟩
    | again hn' _ => rw [hn] at hn'; cases hn'

theorem Gives.done {z : Zer S E} {s : S} {h h' : SerHelper} {evs : List Event} (g : Gives z s h evs)
    (hn : z.step s h = (.done, h')) : evs = [] := by
  rcases g with ⟨h1, g⟩ | g
  · cases g with
    | done hn' => rfl
    | emit hn' r => rw [hn] at hn'; cases hn'
    | again hn' _ => rw [hn] at hn'; cases hn'
  · cases g with
    | fail hn' => rfl
    | emit hn' r => rw [hn] at hn'; cases hn'
    | again hn' _ => rw [hn] at hn'; cases hn'

/-- **C74.** At every point of every schedule (so if the future is dropped there, the process ends, or the writer fails), what
has been written is a beginning of the document that the serializer gives; it is the whole document if `serialize_async` has
returned without an error. -/
theorem C74_written_is_prefix (bytes : Event → Str) (z : Zer S E) (A : AsyncWriter O F W E) (text : O → Str)
    {Doing : O → Event → F → Prop} (ap : Appends bytes A text Doing) (s : S) (h : SerHelper) (o : O) (evs : List Event)
    (g : Gives z s h evs) (ws : List W) (t : WTask S F O E) (hr : WReaches z A (.running s h o) ws t) :
    (∃ p, p <+: docText bytes evs ∧ text (t.output A) = text o ++ p) ∧
    (∀ o', t = .finished (.ok ()) o' → text o' = text o ++ docText bytes evs) := by
  have main : ∀ t0 t ws, WReaches z A t0 ws t → ∀ base evs,
      ((∃ s h o, t0 = .running s h o ∧ Gives z s h evs ∧ text o = base) ∨
        (∃ f s h o ev evs', t0 = .writing f s h ∧ Doing o ev f ∧ evs = ev :: evs' ∧ Gives z s h evs' ∧ text o = base) ∨
        (∃ res o, t0 = .finished res o ∧ (∃ p, p <+: docText bytes evs ∧ text o = base ++ p) ∧
          (res = .ok () → text o = base ++ docText bytes evs))) →
      (∃ p, p <+: docText bytes evs ∧ text (t.output A) = base ++ p) ∧
      (∀ o', t = .finished (.ok ()) o' → text o' = base ++ docText bytes evs) := by
    intro t0 t ws hr
    induction hr with
    | refl =>
      rintro base evs (⟨s, h, o, rfl, g, hb⟩ | ⟨f, s, h, o, ev, evs', rfl, hd, rfl, g, hb⟩ | ⟨res, o, rfl, hp, hf⟩)
      · exact ⟨⟨[], List.nil_prefix, by simp [WTask.output, hb]⟩, (by rintro _ ⟨⟩)⟩
      · obtain ⟨p, hp, ht⟩ := ap.part _ _ _ hd
        refine ⟨⟨p, ?_, by simp [WTask.output, ht, hb]⟩, (by rintro _ ⟨⟩)⟩
        exact hp.trans (by simp [docText])
      · refine ⟨hp, ?_⟩
        rintro o' h1
        cases h1
        exact hf rfl
    | step st _ ih =>
      rintro base evs (⟨s, h, o, rfl, g, hb⟩ | ⟨f, s, h, o, ev, evs', rfl, hd, rfl, g, hb⟩ | ⟨res, o, rfl, hp, hf⟩)
      · cases st with
        | done hn =>
          obtain rfl := g.done hn
          exact ih base [] (Or.inr (Or.inr ⟨_, _, rfl, ⟨[], List.nil_prefix, by simp [hb]⟩, fun _ => by simp [docText, hb]⟩))
        | fail hn =>
          exact ih base evs (Or.inr (Or.inr ⟨_, _, rfl, ⟨[], List.nil_prefix, by simp [hb]⟩, (by rintro ⟨⟩)⟩))
        | again hn => exact ih base evs (Or.inl ⟨_, _, _, rfl, g.again hn, hb⟩)
        | emit hn =>
          obtain ⟨evs', rfl, g'⟩ := g.emit hn
          exact ih base _ (Or.inr (Or.inl ⟨_, _, _, _, _, _, rfl, ap.begin _ _, rfl, g', hb⟩))
      · cases st with
        | pending hp =>
          exact ih base _ (Or.inr (Or.inl ⟨_, _, _, _, _, _, rfl, ap.pending _ _ _ _ _ hd hp, rfl, g, hb⟩))
        | writeErr hp =>
          obtain ⟨p, hpre, ht⟩ := ap.failed _ _ _ _ _ _ hd hp
          exact ih base _ (Or.inr (Or.inr ⟨_, _, rfl, ⟨p, hpre.trans (by simp [docText]), by rw [ht, hb]⟩, (by rintro ⟨⟩)⟩))
        | written hp =>
          have ht := ap.written _ _ _ _ _ hd hp
          obtain ⟨⟨p, h1, h2⟩, h3⟩ := ih (text _) evs' (Or.inl ⟨_, _, _, rfl, g, rfl⟩)
          refine ⟨⟨bytes ev ++ p, ?_, ?_⟩, ?_⟩
          · simpa [docText] using h1
          · rw [h2, ht, hb, List.append_assoc]
          · intro o' ho
            rw [h3 o' ho, ht, hb, List.append_assoc]
            simp [docText]
      · cases st
  exact main _ _ _ hr (text o) evs (Or.inl ⟨_, _, _, rfl, g, rfl⟩)

/-- A synchronous writer as one whose futures are ready at once. -/
def SyncWriter.instant (P : SyncWriter O E) : AsyncWriter O (O × Event) Unit E where
  begin := Prod.mk
  poll := fun f _ => .ready (P.write f.1 f.2).1 (P.write f.1 f.2).2
  sink := Prod.fst

theorem SyncWrite.reaches {z : Zer S E} {P : SyncWriter O E} {s : S} {h : SerHelper} {o : O} {res : Except E Unit} {o' : O}
    (r : SyncWrite z P s h o res o') : ∃ ws, WReaches z P.instant (.running s h o) ws (.finished res o') := by
  induction r with
  | done hn => exact ⟨_, .step (.done hn) .refl⟩
  | fail hn => exact ⟨_, .step (.fail hn) .refl⟩
  | again hn _ ih => obtain ⟨ws, ih⟩ := ih; exact ⟨_, .step (.again hn) ih⟩
  | writeErr hn hw =>
    refine ⟨_, .step (.emit hn) (.step (.writeErr (w := ()) ?_) .refl)⟩
    simp [SyncWriter.instant, hw]
  | write hn hw _ ih =>
    obtain ⟨ws, ih⟩ := ih
    refine ⟨_, .step (.emit hn) (.step (.written (w := ()) ?_) ih)⟩
    simp [SyncWriter.instant, hw]

/-- **C74** for `serialize`: whether it succeeds, the serializer fails or the writer fails at any point, what has been written is
a beginning of the document; it is the whole document if there was no error. -/
theorem C74_sync_written_is_prefix (bytes : Event → Str) (z : Zer S E) (P : SyncWriter O E) (text : O → Str)
    (hok : ∀ o ev o', P.write o ev = (.ok (), o') → text o' = text o ++ bytes ev)
    (herr : ∀ o ev err o', P.write o ev = (.error err, o') → ∃ p, p <+: bytes ev ∧ text o' = text o ++ p)
    (s : S) (h : SerHelper) (o : O) (evs : List Event) (g : Gives z s h evs) (res : Except E Unit) (o' : O)
    (r : SyncWrite z P s h o res o') :
    (∃ p, p <+: docText bytes evs ∧ text o' = text o ++ p) ∧ (res = .ok () → text o' = text o ++ docText bytes evs) := by
  obtain ⟨ws, hr⟩ := r.reaches
  have ap : Appends bytes P.instant text (fun o ev f => f = (o, ev)) :=
    { begin := fun _ _ => rfl
      pending := by intro o ev f w f' _ h; cases h
      part := by rintro o ev f rfl; exact ⟨[], List.nil_prefix, by simp [SyncWriter.instant]⟩
      failed := by
        rintro o ev f w err o' rfl h
        simp only [SyncWriter.instant, Polled.ready.injEq] at h
        exact herr o ev err o' (by rw [← h.1, ← h.2])
      written := by
        rintro o ev f w o' rfl h
        simp only [SyncWriter.instant, Polled.ready.injEq] at h
        exact hok o ev o' (by rw [← h.1, ← h.2]) }
  obtain ⟨h1, h2⟩ := C74_written_is_prefix bytes z P.instant text ap s h o evs g ws _ hr
  exact ⟨h1, fun hres => h2 o' (by rw [hres])⟩

end
end Verif.Rt
