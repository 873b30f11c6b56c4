import Verif.Proof.ReadFaults
/-! # Reads that fail when an index is opened for appending -/

namespace Dupi

/-- reading a file with contents `f` when reads fail for good once one has failed -/
def Lasting (f : Bytes) (s : Stream) : Prop :=
  ∃ (g h : Bytes) (es : List Err), f = g ++ h ∧ s = bytesOf g ++ es.map Ev.fail ∧ (es = [] → h = [])

/-- nothing but errors -/
def Dead (s : Stream) : Prop := ∃ es : List Err, s = es.map Ev.fail

theorem Lasting.byte {b : UInt8} {f : Bytes} {s : Stream} (h : Lasting (b :: f) s) :
    Dead s ∨ ∃ s', s = .byte b :: s' ∧ Lasting f s' := by
  obtain ⟨g, t, es, h1, h2, h3⟩ := h
  cases g with
  | nil => exact .inl ⟨es, by simpa [bytesOf] using h2⟩
  | cons a g =>
    simp only [List.cons_append, List.cons.injEq] at h1
    obtain ⟨rfl, h1⟩ := h1
    exact .inr ⟨bytesOf g ++ es.map Ev.fail, by simpa [bytesOf] using h2, g, t, es, h1, rfl, h3⟩

theorem Dead.readByte {s : Stream} (h : Dead s) : ∃ e s', s.readByte = (.error (.err e), s') := by
  obtain ⟨es, rfl⟩ := h
  cases es with
  | nil => exact ⟨_, _, rfl⟩
  | cons e es => exact ⟨_, _, rfl⟩

theorem uvarintLoop_last (f : Bytes) : ∀ (k x v : Nat) (f' : Bytes) (s : Stream), k ≤ maxVarintLen64 →
    readUvarintLoop f (maxVarintLen64 - k) x = .ok (v, f') → Lasting f s →
    (∃ s', Stream.uvarintLoop k s x = (v, none, s') ∧ Lasting f' s') ∨ ∃ v' e s', Stream.uvarintLoop k s x = (v', some e, s') ∧ Dead s' := by
  induction f with
  | nil =>
    intro k x v f' s hk h
    unfold readUvarintLoop at h; split at h <;> cases h
  | cons b f ih =>
    intro k x v f' s hk h hl
    unfold readUvarintLoop at h
    split at h
    · cases h
    · rename_i hk'
      obtain ⟨k, rfl⟩ : ∃ j, k = j + 1 := ⟨k - 1, by omega⟩
      rcases hl.byte with ⟨es, rfl⟩ | ⟨s', rfl, hl'⟩
      · refine .inr ?_
        cases es with
        | nil => exact ⟨_, _, _, rfl, [], rfl⟩
        | cons e es => exact ⟨_, _, _, rfl, es, rfl⟩
      · simp only [Stream.uvarintLoop]
        simp only [] at h
        split at h
        · rename_i hb
          rw [if_pos hb]
          split at h
          · cases h
          · rename_i hc
            injection h with h; injection h with h1 h2
            rw [if_neg hc]
            exact .inl ⟨s', by rw [h1], h2 ▸ hl'⟩
        · rename_i hb
          rw [if_neg hb]
          rw [show maxVarintLen64 - (k + 1) + 1 = maxVarintLen64 - k by omega] at h
          exact ih k _ v f' s' (by omega) h hl'

theorem readVarint_last {f f' : Bytes} {v : Int} {s : Stream} (h : readVarint f = .ok (v, f')) (hl : Lasting f s) :
    (∃ s', s.readVarint = (v, none, s') ∧ Lasting f' s') ∨ ∃ v' e s', s.readVarint = (v', some e, s') ∧ Dead s' := by
  unfold readVarint at h
  cases hu : readUvarint f with
  | error e => simp [hu, bind, Except.bind] at h
  | ok r =>
    obtain ⟨ux, g⟩ := r
    simp only [hu, bind, Except.bind, pure, Except.pure, Except.ok.injEq, Prod.mk.injEq] at h
    obtain ⟨rfl, rfl⟩ := h
    rcases uvarintLoop_last f maxVarintLen64 0 ux g s (Nat.le_refl _) (by simpa [readUvarint] using hu) hl with ⟨s', e1, e2⟩ | ⟨v', e, s', e1, e2⟩
    · exact .inl ⟨s', by simp only [Stream.readVarint, Stream.readUvarint, e1], e2⟩
    · exact .inr ⟨unzigzag v', e, s', by simp only [Stream.readVarint, Stream.readUvarint, e1], e2⟩

theorem uvarintLoop_lax (f : Bytes) : ∀ (k x v : Nat) (f' : Bytes) (s : Stream), k ≤ maxVarintLen64 →
    Poster.readUvarintLax f (maxVarintLen64 - k) x = (v, f') → Lasting f s →
    (∃ e s', Stream.uvarintLoop k s x = (v, e, s') ∧ Lasting f' s') ∨ ∃ v' e s', Stream.uvarintLoop k s x = (v', some e, s') ∧ Dead s' := by
  induction f with
  | nil =>
    intro k x v f' s hk h hl
    unfold Poster.readUvarintLax at h
    cases k with
    | zero =>
      rw [if_pos (by omega)] at h
      injection h with h1 h2
      subst h1 h2
      exact .inl ⟨_, _, rfl, hl⟩
    | succ k =>
      obtain ⟨g, t, es, h1, h2, h3⟩ := hl
      have : g = [] := (List.append_eq_nil_iff.mp h1.symm).1
      subst this
      simp only [bytesOf, List.map_nil, List.nil_append] at h2
      subst h2
      refine .inr ?_
      cases es with
      | nil => exact ⟨_, _, _, rfl, [], rfl⟩
      | cons e es => exact ⟨_, _, _, rfl, es, rfl⟩
  | cons b f ih =>
    intro k x v f' s hk h hl
    unfold Poster.readUvarintLax at h
    cases k with
    | zero =>
      rw [if_pos (by omega)] at h
      injection h with h1 h2
      subst h1 h2
      exact .inl ⟨_, _, rfl, hl⟩
    | succ k =>
      rw [if_neg (by omega)] at h
      rcases hl.byte with ⟨es, rfl⟩ | ⟨s', rfl, hl'⟩
      · refine .inr ?_
        cases es with
        | nil => exact ⟨_, _, _, rfl, [], rfl⟩
        | cons e es => exact ⟨_, _, _, rfl, es, rfl⟩
      · simp only [Stream.uvarintLoop]
        simp only [] at h
        split at h
        · rename_i hb
          rw [if_pos hb]
          split at h
          · rename_i hc
            injection h with h1 h2
            rw [if_pos hc]
            exact .inl ⟨_, s', by rw [h1], h2 ▸ hl'⟩
          · rename_i hc
            injection h with h1 h2
            rw [if_neg hc]
            exact .inl ⟨_, s', by rw [h1], h2 ▸ hl'⟩
        · rename_i hb
          rw [if_neg hb]
          rw [show maxVarintLen64 - (k + 1) + 1 = maxVarintLen64 - k by omega] at h
          exact ih k _ v f' s' (by omega) h hl'

theorem readVarint_lax {f f' : Bytes} {v : Int} {s : Stream} (h : Poster.readVarintLax f = (v, f')) (hl : Lasting f s) :
    (∃ e s', s.readVarint = (v, e, s') ∧ Lasting f' s') ∨ ∃ v' e s', s.readVarint = (v', some e, s') ∧ Dead s' := by
  unfold Poster.readVarintLax at h
  cases hu : Poster.readUvarintLax f 0 0 with
  | mk ux g =>
    rw [hu] at h
    simp only [Prod.mk.injEq] at h
    obtain ⟨rfl, rfl⟩ := h
    rcases uvarintLoop_lax f maxVarintLen64 0 ux g s (Nat.le_refl _) (by simpa using hu) hl with ⟨e, s', e1, e2⟩ | ⟨v', e, s', e1, e2⟩
    · exact .inl ⟨e, s', by simp only [Stream.readVarint, Stream.readUvarint, e1], e2⟩
    · exact .inr ⟨unzigzag v', e, s', by simp only [Stream.readVarint, Stream.readUvarint, e1], e2⟩

theorem Dead.read4 {s : Stream} (h : Dead s) : ∃ e s', Poster.read4S s = (.error (.err e), s') := by
  obtain ⟨e, s', h⟩ := h.readByte
  exact ⟨e, s', by simp only [Poster.read4S, h]⟩

theorem readByte_last {f f' : Bytes} {b : UInt8} {s : Stream} (h : readByte f = .ok (b, f')) (hl : Lasting f s) :
    (∃ s', s.readByte = (.ok b, s') ∧ Lasting f' s') ∨ ∃ e s', s.readByte = (.error (.err e), s') := by
  cases f with
  | nil => cases h
  | cons a f =>
    simp only [readByte, Except.ok.injEq, Prod.mk.injEq] at h
    obtain ⟨rfl, rfl⟩ := h
    rcases hl.byte with hd | ⟨s', rfl, hl'⟩
    · exact .inr hd.readByte
    · exact .inl ⟨s', rfl, hl'⟩

theorem read4_last {f f' w : Bytes} {s : Stream} (h : Poster.read4 f = .ok (w, f')) (hl : Lasting f s) :
    (∃ s', Poster.read4S s = (.ok w, s') ∧ Lasting f' s') ∨ ∃ e s', Poster.read4S s = (.error (.err e), s') := by
  unfold Poster.read4 at h
  rcases f with _ | ⟨b0, _ | ⟨b1, _ | ⟨b2, _ | ⟨b3, f⟩⟩⟩⟩ <;> simp only [readByte, bind, Except.bind, fail, reduceCtorEq] at h
  simp only [pure, Except.pure, Except.ok.injEq, Prod.mk.injEq] at h
  obtain ⟨rfl, rfl⟩ := h
  rcases readByte_last (b := b0) rfl hl with ⟨s1, e1, l1⟩ | ⟨e, s', e1⟩
  · rcases readByte_last (b := b1) rfl l1 with ⟨s2, e2, l2⟩ | ⟨e, s', e2⟩
    · rcases readByte_last (b := b2) rfl l2 with ⟨s3, e3, l3⟩ | ⟨e, s', e3⟩
      · rcases readByte_last (b := b3) rfl l3 with ⟨s4, e4, l4⟩ | ⟨e, s', e4⟩
        · exact .inl ⟨s4, by simp only [Poster.read4S, e1, e2, e3, e4], l4⟩
        · exact .inr ⟨e, s', by simp only [Poster.read4S, e1, e2, e3, e4]⟩
      · exact .inr ⟨e, s', by simp only [Poster.read4S, e1, e2, e3]⟩
    · exact .inr ⟨e, s', by simp only [Poster.read4S, e1, e2]⟩
  · exact .inr ⟨e, s', by simp only [Poster.read4S, e1]⟩

theorem initAppend_last {f f' : Bytes} {p : Poster} {s : Stream} (h : Poster.initAppend f = .ok (p, f')) (hl : Lasting f s) :
    (∃ s', Poster.initAppendS s = (.ok p, s') ∧ Lasting f' s') ∨ ∃ e s', Poster.initAppendS s = (.error (.err e), s') := by
  unfold Poster.initAppend at h
  cases h1 : readVarint f with
  | error e => simp [h1, bind, Except.bind] at h
  | ok r1 =>
    obtain ⟨hd, f1⟩ := r1
    simp only [h1, bind, Except.bind] at h
    cases h2 : Poster.readVarintLax f1 with
    | mk ct f2 =>
      simp only [h2] at h
      split at h
      · cases h
      · rename_i hc
        cases h3 : Poster.read4 f2 with
        | error e => simp [h3] at h
        | ok r3 =>
          obtain ⟨w, f3⟩ := r3
          simp only [h3] at h
          cases h4 : getBE32 w with
          | error e => simp [h4] at h
          | ok cur =>
            simp only [h4, pure, Except.pure, Except.ok.injEq, Prod.mk.injEq] at h
            obtain ⟨rfl, rfl⟩ := h
            unfold Poster.initAppendS
            rcases readVarint_last h1 hl with ⟨s1, e1, l1⟩ | ⟨v', e, s', e1, _⟩
            · rcases readVarint_lax h2 l1 with ⟨e', s2, e2, l2⟩ | ⟨v', e, s', e2, hd⟩
              · rcases read4_last h3 l2 with ⟨s3, e3, l3⟩ | ⟨e, s', e3⟩
                · exact .inl ⟨s3, by simp only [e1, e2, if_neg hc, e3, h4, bind, Except.bind, pure, Except.pure], l3⟩
                · exact .inr ⟨e, s', by simp only [e1, e2, if_neg hc, e3]⟩
              · simp only [e1, e2]
                split
                · exact .inr ⟨_, _, rfl⟩
                · obtain ⟨e, s'', h⟩ := hd.read4
                  exact .inr ⟨e, s'', by simp only [h]⟩
            · exact .inr ⟨e, s', by simp only [e1, fail]⟩

theorem readIix_last (n : Nat) : ∀ (f : Bytes) (ps : List Poster) (s : Stream), ShardIndexer.readIix n f = .ok ps → Lasting f s →
    ShardIndexer.readIixS n s = .ok ps ∨ ∃ e, ShardIndexer.readIixS n s = .error (.err e) := by
  induction n with
  | zero => intro f ps s h _; exact .inl h
  | succ n ih =>
    intro f ps s h hl
    rw [ShardIndexer.readIix] at h
    cases h1 : Poster.initAppend f with
    | error e => simp [h1, bind, Except.bind] at h
    | ok r =>
      obtain ⟨p, f'⟩ := r
      simp only [h1, bind, Except.bind] at h
      cases h2 : ShardIndexer.readIix n f' with
      | error e => simp [h2] at h
      | ok rest =>
        simp only [h2] at h
        simp only [ShardIndexer.readIixS]
        rcases initAppend_last h1 hl with ⟨s', e1, l1⟩ | ⟨e, s', e1⟩
        · rcases ih f' rest s' h2 l1 with e2 | ⟨e, e2⟩
          · exact .inl (by simp only [e1, e2, bind, Except.bind]; exact h)
          · exact .inr ⟨e, by simp only [e1, e2, bind, Except.bind]⟩
        · exact .inr ⟨e, by simp only [e1, bind, Except.bind]⟩

theorem initAppendS_last {n : Nat} {d : ShardFiles} {x : ShardIndexer} {s : Stream} (h : ShardIndexer.initAppend n d = .ok x) (hl : Lasting d.iix s) :
    ShardIndexer.initAppendS n s d.post = .ok x ∨ ∃ e, ShardIndexer.initAppendS n s d.post = .error (.err e) := by
  unfold ShardIndexer.initAppend at h
  unfold ShardIndexer.initAppendS
  cases h1 : ShardIndexer.readIix n d.iix with
  | error e => simp [h1, bind, Except.bind] at h
  | ok ps =>
    simp only [h1, bind, Except.bind] at h
    rcases readIix_last n _ _ s h1 hl with e1 | ⟨e, e1⟩
    · exact .inl (by simp only [e1, bind, Except.bind]; exact h)
    · exact .inr ⟨e, by simp only [e1, bind, Except.bind]⟩

theorem lasting_bytesOf (f : Bytes) : Lasting f (bytesOf f) := ⟨f, [], [], by simp, by simp, fun _ => rfl⟩

/-! ### One failing read: the total of the last bucket -/

/-- an entry as it is read, whatever follows -/
theorem initAppendS_entry (p : Poster) (h1 : -(2 ^ 63) ≤ p.head) (h2 : p.head < 2 ^ 63) (t : Stream) :
    Poster.initAppendS (bytesOf (ShardIndexer.iixEntry p) ++ t) = (.ok ⟨-1, p.head, p.current, p.total, []⟩, t) := by
  have ht := p.total.toNat_lt
  unfold Poster.initAppendS ShardIndexer.iixEntry
  have e1 := readVarint_bytes t (readVarint_put p.head (putVarint p.total.toNat ++ be32 p.current) h1 h2)
  have e2 := readVarint_bytes t (readVarint_put (p.total.toNat : Int) (be32 p.current) (by omega) (by omega))
  rw [List.append_assoc]
  simp only [e1, e2]
  rw [if_neg (by omega)]
  have e3 : Poster.read4S (bytesOf (be32 p.current) ++ t) = (.ok (be32 p.current), t) := rfl
  simp only [e3]
  have := getBE32_be32 p.current []
  rw [List.append_nil] at this
  simp [this, bind, Except.bind, pure, Except.pure]

theorem readIixS_entries (ps : List Poster) (t : Stream) (n : Nat) (hp : ∀ p ∈ ps, -(2 ^ 63) ≤ p.head ∧ p.head < 2 ^ 63) :
    ShardIndexer.readIixS (ps.length + n) (bytesOf (ps.flatMap ShardIndexer.iixEntry) ++ t) = (do
      let qs ← ShardIndexer.readIixS n t
      return ps.map (fun p => ⟨-1, p.head, p.current, p.total, []⟩) ++ qs) := by
  induction ps with
  | nil =>
    simp only [List.length_nil, Nat.zero_add, List.flatMap_nil, bytesOf, List.map_nil, List.nil_append, bind, Except.bind, pure, Except.pure]
    cases ShardIndexer.readIixS n t <;> rfl
  | cons p ps ih =>
    obtain ⟨h1, h2⟩ := hp p (by simp)
    rw [List.length_cons, Nat.add_right_comm, ShardIndexer.readIixS]
    have e : bytesOf ((p :: ps).flatMap ShardIndexer.iixEntry) ++ t =
        bytesOf (ShardIndexer.iixEntry p) ++ (bytesOf (ps.flatMap ShardIndexer.iixEntry) ++ t) := by
      simp [bytesOf, List.flatMap_cons]
    rw [e, initAppendS_entry p h1 h2]
    simp only [bind, Except.bind]
    rw [ih (fun q hq => hp q (by simp [hq]))]
    simp only [bind, Except.bind]
    cases ShardIndexer.readIixS n t <;> rfl

/-- reading the index file fails once, where the total of the last bucket begins -/
def brokenIix (ps : List Poster) (p : Poster) (e : Err) : Stream :=
  bytesOf (ps.flatMap ShardIndexer.iixEntry) ++ (bytesOf (putVarint p.head) ++ .fail e :: bytesOf (putVarint p.total.toNat ++ be32 p.current))

theorem brokenIix_content (ps : List Poster) (p : Poster) (e : Err) :
    (brokenIix ps p e).content = (ps ++ [p]).flatMap ShardIndexer.iixEntry := by
  have happ : ∀ (f : Bytes) (t : Stream), (bytesOf f ++ t).content = f ++ t.content := by
    intro f t
    induction f with
    | nil => rfl
    | cons b f ih => simp only [bytesOf, List.map_cons, List.cons_append, Stream.content] at ih ⊢; rw [ih]
  unfold brokenIix
  rw [happ, happ, Stream.content, content_bytesOf]
  simp [ShardIndexer.iixEntry]

theorem readIixS_broken (ps : List Poster) (p : Poster) (e : Err) (hp : ∀ q ∈ ps ++ [p], -(2 ^ 63) ≤ q.head ∧ q.head < 2 ^ 63) :
    ∃ cur, ShardIndexer.readIixS (ps.length + 1) (brokenIix ps p e) =
      .ok (ps.map (fun p => ⟨-1, p.head, p.current, p.total, []⟩) ++ [⟨-1, p.head, cur, 0, []⟩]) := by
  obtain ⟨h1, h2⟩ := hp p (by simp)
  obtain ⟨c0, cs, hc⟩ : ∃ c0 cs, putVarint p.total.toNat = c0 :: cs := by
    have := putUvarint_ne_nil (zigzag (p.total.toNat : Int))
    unfold putVarint
    cases h : putUvarint (zigzag (p.total.toNat : Int)) with
    | nil => exact absurd h this
    | cons a l => exact ⟨a, l, rfl⟩
  obtain ⟨b0, b1, b2, b3, r, hb⟩ : ∃ b0 b1 b2 b3 r, putVarint p.total.toNat ++ be32 p.current = b0 :: b1 :: b2 :: b3 :: r := by
    rw [hc]
    rcases cs with _ | ⟨c1, _ | ⟨c2, _ | ⟨c3, cs⟩⟩⟩ <;> simp [be32]
  obtain ⟨cur, hcur⟩ : ∃ cur, getBE32 [b0, b1, b2, b3] = .ok cur := ⟨_, rfl⟩
  refine ⟨cur, ?_⟩
  unfold brokenIix
  rw [readIixS_entries ps _ 1 (fun q hq => hp q (by simp [hq])), ShardIndexer.readIixS]
  have e1 : ∀ t, (bytesOf (putVarint p.head) ++ t).readVarint = (p.head, none, t) := by
    intro t
    have := readVarint_put p.head [] h1 h2
    rw [List.append_nil] at this
    have := readVarint_bytes t this
    simpa [bytesOf] using this
  have e2 : ∀ t : Stream, Stream.readVarint (.fail e :: t) = (0, some e, t) := fun t => rfl
  have e3 : Poster.read4S (bytesOf (b0 :: b1 :: b2 :: b3 :: r)) = (.ok [b0, b1, b2, b3], bytesOf r) := rfl
  have e4 : Poster.initAppendS (bytesOf (putVarint p.head) ++ .fail e :: bytesOf (putVarint p.total.toNat ++ be32 p.current)) =
      (.ok ⟨-1, p.head, cur, 0, []⟩, bytesOf r) := by
    rw [hb]
    simp only [Poster.initAppendS, e1, e2, e3, hcur, bind, Except.bind, pure, Except.pure]
    rfl
  rw [e4]
  simp only [ShardIndexer.readIixS, bind, Except.bind, pure, Except.pure]

/-- links are found from the heads alone -/
theorem readLinks_heads (f : Bytes) (ps : List Poster) (qs : List Poster) (h : ShardIndexer.readLinks f (ps.map fun p => ⟨-1, p.head, p.current, p.total, []⟩) = .ok qs)
    (rs : List Poster) (hr : rs.map Poster.head = ps.map Poster.head) (hl : ∀ r ∈ rs, r.link = -1) :
    ∃ ts, ShardIndexer.readLinks f rs = .ok ts ∧ ts.map (fun p => (p.head, p.current, p.total, p.posts)) = rs.map (fun p => (p.head, p.current, p.total, p.posts)) := by
  induction rs generalizing ps qs with
  | nil => exact ⟨[], rfl, rfl⟩
  | cons r rs ih =>
    cases ps with
    | nil => simp at hr
    | cons p ps =>
      simp only [List.map_cons, List.cons.injEq] at hr
      simp only [List.map_cons, ShardIndexer.readLinks] at h
      have hlink := hl r (by simp)
      cases h1 : Poster.readToLink ⟨-1, p.head, p.current, p.total, []⟩ f with
      | error e => simp [h1, bind, Except.bind] at h
      | ok p' =>
        simp only [h1, bind, Except.bind] at h
        cases h2 : ShardIndexer.readLinks f (ps.map fun p => ⟨-1, p.head, p.current, p.total, []⟩) with
        | error e => simp [h2] at h
        | ok qs' =>
          obtain ⟨ts, e1, e2⟩ := ih ps qs' h2 hr.2 (fun q hq => hl q (by simp [hq]))
          obtain ⟨l, hl'⟩ : ∃ l, Poster.readToLink r f = .ok { r with link := l } := by
            unfold Poster.readToLink at h1 ⊢
            simp only [] at h1
            rw [hr.1, hlink]
            by_cases hh : p.head = -1
            · rw [if_pos hh]; exact ⟨-1, by cases r; simp_all⟩
            · rw [if_neg hh] at h1 ⊢
              simp only [ne_eq, not_true_eq_false, if_false] at h1 ⊢
              cases h3 : Poster.readToLinkLoop f (f.length + 1) p.head with
              | error e => simp [h3, bind, Except.bind] at h1
              | ok l => exact ⟨l, rfl⟩
          exact ⟨{ r with link := l } :: ts, by simp only [ShardIndexer.readLinks, hl', e1, bind, Except.bind, pure, Except.pure], by simp [e2]⟩

theorem flushInd_empty (ps : List Poster) (f : Bytes) (h : ∀ p ∈ ps, p.posts = []) : ShardIndexer.flushInd ps f = .ok (ps, f) := by
  induction ps with
  | nil => rfl
  | cons p ps ih =>
    have h1 := h p (by simp)
    simp only [ShardIndexer.flushInd, Poster.flushTo, Poster.flushWrites, if_pos h1, bind, Except.bind, pure, Except.pure, Poster.applyWrites, List.foldl_nil,
      ih (fun q hq => h q (by simp [hq]))]

theorem indexReadIix_entries (ps : List Poster) (hp : ∀ p ∈ ps, -(2 ^ 63) ≤ p.head ∧ p.head < 2 ^ 63) :
    ShardIndex.readIix ps.length (ps.flatMap ShardIndexer.iixEntry) = .ok (ps.map fun p => (p.head, p.total)) := by
  induction ps with
  | nil => rfl
  | cons p ps ih =>
    obtain ⟨h1, h2⟩ := hp p (by simp)
    have ht := p.total.toNat_lt
    rw [List.length_cons, ShardIndex.readIix, List.flatMap_cons]
    unfold ShardIndexer.iixEntry
    rw [List.append_assoc, List.append_assoc, readVarint_put _ _ h1 h2]
    simp only [bind, Except.bind]
    rw [readVarint_put _ _ (by omega) (by omega)]
    simp only []
    rw [if_neg (by omega)]
    have e : readFull (be32 p.current ++ ps.flatMap fun p => putVarint p.head ++ putVarint p.total.toNat ++ be32 p.current) 4 =
        .ok (be32 p.current, ps.flatMap fun p => putVarint p.head ++ putVarint p.total.toNat ++ be32 p.current) := by
      unfold readFull
      rw [if_pos (by simp [be32_length])]
      rw [List.take_left' (be32_length _), List.drop_left' (be32_length _)]
    rw [e]
    have ih := ih (fun q hq => hp q (by simp [hq]))
    unfold ShardIndexer.iixEntry at ih
    simp only [ih, pure, Except.pure, List.map_cons]
    congr 3
    simp

/-- Opening a closed shard while one read of its index file fails, and closing it again: no error, and the count of the
last bucket is gone. -/
theorem broken_session (srt : Sorter) {n : Nat} {bs : List Blk} {ps : List Poster} {p : Poster} {vals : Nat → List UInt32}
    (h : ClosedRep n bs (ps ++ [p]) vals) (hl : (render 0 bs).length < 2 ^ 63) (e : Err) :
    ∃ x d ix, ShardIndexer.initAppendS n (brokenIix ps p e) (render 0 bs) = .ok x ∧ x.close = .ok d ∧ ShardIndex.init srt n d = .ok ix ∧
      ix.count ps.length = .ok 0 := by
  have hn : n = ps.length + 1 := by rw [← h.len]; simp
  have hp : ∀ q ∈ ps ++ [p], -(2 ^ 63) ≤ q.head ∧ q.head < 2 ^ 63 := by
    intro q hq
    obtain ⟨o, ho⟩ := List.mem_iff_getElem?.mp hq
    exact (h.rep o q ho).1.headBound hl
  obtain ⟨cur, h1⟩ := readIixS_broken ps p e hp
  have h2 : ShardIndexer.readLinks (render 0 bs) ((ps ++ [p]).map fun p => ⟨-1, p.head, p.current, p.total, []⟩) = .ok (ps ++ [p]) := by
    have := readLinks_spec bs h.wf hl vals (ps ++ [p]) 0 (fun o p hp => (h.rep o p hp).1)
    rw [← this]
    congr 1
    apply List.map_congr_left
    intro q hq
    obtain ⟨o, ho⟩ := List.mem_iff_getElem?.mp hq
    have := (h.rep o q ho).2
    cases q; simp_all
  obtain ⟨ts, h3, h4⟩ := readLinks_heads (render 0 bs) (ps ++ [p]) _ h2
    (ps.map (fun p => ⟨-1, p.head, p.current, p.total, []⟩) ++ [⟨-1, p.head, cur, 0, []⟩])
    (by simp) (by
      intro r hr
      simp only [List.mem_append, List.mem_map, List.mem_singleton] at hr
      rcases hr with ⟨a, _, rfl⟩ | rfl <;> rfl)
  have hposts : ∀ q ∈ ts, q.posts = [] := by
    intro q hq
    have : (q.head, q.current, q.total, q.posts) ∈ ts.map (fun p => (p.head, p.current, p.total, p.posts)) := List.mem_map_of_mem hq
    rw [h4] at this
    simp only [List.map_append, List.map_map, List.mem_append, List.mem_map, Function.comp_apply, Prod.mk.injEq, List.map_cons, List.map_nil, List.mem_singleton] at this
    rcases this with ⟨r, _, _, _, _, hr⟩ | ⟨_, _, _, hr⟩
    · exact hr.symm
    · exact hr
  have hheads : ts.map Poster.head = (ps ++ [p]).map Poster.head := by
    have := congrArg (List.map Prod.fst) h4
    simpa [List.map_map, Function.comp_def] using this
  have htot : ts.map Poster.total = ps.map Poster.total ++ [0] := by
    have := congrArg (List.map fun r : Int × UInt32 × UInt32 × Bytes => r.2.2.1) h4
    simpa [List.map_map, Function.comp_def] using this
  have hlen : ts.length = n := by
    have := congrArg List.length hheads
    simp at this; omega
  have hpt : ∀ q ∈ ts, -(2 ^ 63) ≤ q.head ∧ q.head < 2 ^ 63 := by
    intro q hq
    have : q.head ∈ (ps ++ [p]).map Poster.head := by rw [← hheads]; exact List.mem_map_of_mem hq
    obtain ⟨r, hr, he⟩ := List.mem_map.mp this
    rw [← he]; exact hp r hr
  refine ⟨⟨ts, render 0 bs⟩, ⟨render 0 bs, ts.flatMap ShardIndexer.iixEntry⟩,
    ⟨0, (ts.map fun p => (p.head, p.total)).map Prod.fst, (ts.map fun p => (p.head, p.total)).map Prod.snd, srt ((ts.map fun p => (p.head, p.total)).map Prod.snd), render 0 bs⟩, ?_, ?_, ?_, ?_⟩
  · rw [hn]
    simp only [ShardIndexer.initAppendS, h1, h3, bind, Except.bind, pure, Except.pure]
  · simp only [ShardIndexer.close, flushInd_empty ts _ hposts, bind, Except.bind, pure, Except.pure]
  · unfold ShardIndex.init
    rw [← hlen]
    simp only [indexReadIix_entries ts hpt, bind, Except.bind, pure, Except.pure]
  · unfold ShardIndex.count
    have : ((ts.map fun p => (p.head, p.total)).map Prod.snd)[ps.length]? = some 0 := by
      rw [List.map_map]
      show (ts.map Poster.total)[ps.length]? = some 0
      rw [htot]; simp
    simp only [this]

end Dupi
