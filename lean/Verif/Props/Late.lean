import Verif.Model.Late
import Verif.Proof.SchedStuck
import Verif.Props.Query
/-! # C85: calls after Close -/

namespace Dupi.Props
open Dupi.Spec

/-- where a call can have got to, made when every shatterer has returned -/
def Stuck (nw n : Nat) : Option Doc → Late.Pos → Prop
  | some doc, p => p = .numbering doc ∨ (∃ id, p = .sending (id, doc.start, doc.dat.getD [])) ∨ p = .refused
  | none, p => (0 < nw → p = .shutting nw) ∧ (nw = 0 → 0 < n → p = .shutting 0 ∨ p = .closing ∨ p = .panicked) ∧
      (nw = 0 → n = 0 → p = .shutting 0 ∨ p = .closing ∨ p = .writing)

structure LateInv (u : Uni) (x : Indexer) (calls : List (Option Doc)) (s : Late.St) : Prop where
  told : Sched.Told (x.params u) s.core
  done : s.core.client = .done
  len : s.calls.length = calls.length
  pos : ∀ (i : Nat) c p, calls[i]? = some c → s.calls[i]? = some p → Stuck (x.params u).nw (x.params u).n c p

theorem done_step {W S D α : Type} {P : Sched.Params W S D α} {s t : Sched.St W S D α} (h : Sched.Step P s t) (hd : s.client = .done) :
    t.client = .done := by
  cases h <;> simp_all [Sched.St.setW, Sched.St.setS]

theorem LateInv.set {u : Uni} {x : Indexer} {calls : List (Option Doc)} {s : Late.St} (h : LateInv u x calls s) {i : Nat} {p p' : Late.Pos}
    (hp : s.calls[i]? = some p) (hs : ∀ c, calls[i]? = some c → Stuck (x.params u).nw (x.params u).n c p → Stuck (x.params u).nw (x.params u).n c p')
    (f : Front) (l : List Doc) : LateInv u x calls { s with front := f, calls := s.calls.set i p', numbered := l } := by
  refine ⟨h.told, h.done, by simp [h.len], fun j c q hc hq => ?_⟩
  by_cases e : j = i
  · subst e
    have hl : j < s.calls.length := by
      rcases List.getElem?_eq_some_iff.mp hp with ⟨g, _⟩; exact g
    have hq : q = p' := by simpa [List.getElem?_set, hl] using hq.symm
    rw [hq]
    exact hs c hc (h.pos j c p hc hp)
  · have : (s.calls.set i p')[j]? = s.calls[j]? := by rw [List.getElem?_set_ne (Ne.symm e)]
    exact h.pos j c q hc (this ▸ hq)

theorem LateInv.step {u : Uni} {cwd : Bytes} {x : Indexer} {calls : List (Option Doc)} {s t : Late.St} (h : LateInv u x calls s)
    (hs : Late.Step u cwd x s t) : LateInv u x calls t := by
  have hex : ∀ w, w < (x.params u).nw → (s.core.workers w).2 = .exited := fun w hw => h.told.all (by rw [h.done]; rfl) hw
  cases hs with
  | number h1 h2 =>
    refine h.set h1 (fun c _ hc => ?_) _ _
    cases c with
    | none =>
      obtain ⟨g1, g2, g3⟩ := hc
      by_cases hn : 0 < (x.params u).nw
      · exact absurd (g1 hn) (by simp)
      · by_cases hm : 0 < (x.params u).n
        · rcases g2 (by omega) hm with g | g | g <;> cases g
        · rcases g3 (by omega) (by omega) with g | g | g <;> cases g
    | some doc' =>
      rcases hc with hc | ⟨id, hc⟩ | hc
      · cases hc; exact .inr (.inl ⟨_, rfl⟩)
      · cases hc
      · cases hc
  | refuse h1 h2 =>
    refine h.set h1 (fun c _ hc => ?_) _ _
    cases c with
    | none =>
      obtain ⟨g1, g2, g3⟩ := hc
      by_cases hn : 0 < (x.params u).nw
      · exact absurd (g1 hn) (by simp)
      · by_cases hm : 0 < (x.params u).n
        · rcases g2 (by omega) hm with g | g | g <;> cases g
        · rcases g3 (by omega) (by omega) with g | g | g <;> cases g
    | some doc' => exact .inr (.inr rfl)
  | give h1 h2 h3 => rw [hex _ h2] at h3; cases h3
  | shut h1 h2 h3 => rw [hex _ h2] at h3; cases h3
  | shutDone h1 =>
    refine h.set h1 (fun c _ hc => ?_) _ _
    cases c with
    | none =>
      obtain ⟨g1, g2, g3⟩ := hc
      refine ⟨fun hn => ?_, fun _ _ => .inr (.inl rfl), fun _ _ => .inr (.inl rfl)⟩
      have := g1 hn
      simp only [Late.Pos.shutting.injEq] at this
      omega
    | some doc' => rcases hc with hc | ⟨id, hc⟩ | hc <;> cases hc
  | close h1 h2 h3 =>
    refine h.set h1 (fun c _ hc => ?_) _ _
    cases c with
    | none =>
      obtain ⟨g1, g2, g3⟩ := hc
      exact ⟨fun hn => absurd (g1 hn) (by simp), fun _ _ => .inr (.inr rfl), fun _ hm => by omega⟩
    | some doc' => rcases hc with hc | ⟨id, hc⟩ | hc <;> cases hc
  | write h1 h2 =>
    refine h.set h1 (fun c _ hc => ?_) _ _
    cases c with
    | none =>
      obtain ⟨g1, g2, g3⟩ := hc
      exact ⟨fun hn => absurd (g1 hn) (by simp), fun _ hm => by omega, fun _ _ => .inr (.inr rfl)⟩
    | some doc' => rcases hc with hc | ⟨id, hc⟩ | hc <;> cases hc
  | inner h1 => exact ⟨h.told.step h1, done_step h1 h.done, h.len, h.pos⟩

theorem LateInv.steps {u : Uni} {cwd : Bytes} {x : Indexer} {calls : List (Option Doc)} {s t : Late.St} (h : LateInv u x calls s)
    (hs : Late.Steps u cwd x s t) : LateInv u x calls t := by
  induction hs with
  | refl => exact h
  | step _ h2 ih => exact ih.step h2

theorem LateInv.start {u : Uni} {x : Indexer} {rs : List Front.Req} {k : Nat} {t : Sched.St Blotter ShardIndexer (UInt32 × Bytes) Post}
    (ht : Sched.Steps (x.params u) k (x.start rs) t) (hd : t.client = .done) (front : Front) (calls : List (Option Doc)) :
    LateInv u x calls (Late.start x t front calls) := by
  refine ⟨Sched.Told.steps (Sched.Told.init _ _ _ _ _) ht, hd, by simp [Late.start], fun i c p hc hp => ?_⟩
  have hp : p = Late.begin x c := by simpa [Late.start, hc] using hp.symm
  rw [hp]
  cases c with
  | some doc => exact .inl rfl
  | none =>
    have e : ∀ m, (x.params u).nw = m → Late.begin x none = .shutting m := by rintro m rfl; rfl
    exact ⟨fun _ => rfl, fun h0 _ => .inl (e _ h0), fun h0 _ => .inl (e _ h0)⟩

/-- **C85 fails.**  After Close has stopped the goroutines (whether or not it then returned an error), no call of `Add` ever returns nil, and with at
least one shatterer no further call of `Close` gets anywhere; with none, it panics if there is a shard. -/
theorem C85_false {u : Uni} {cwd : Bytes} {x : Indexer} {rs : List Front.Req} {k : Nat} {t : Sched.St Blotter ShardIndexer (UInt32 × Bytes) Post}
    (ht : Sched.Steps (x.params u) k (x.start rs) t) (hd : t.client = .done) (front : Front) (calls : List (Option Doc)) {s : Late.St}
    (hs : Late.Steps u cwd x (Late.start x t front calls) s) (i : Nat) :
    s.calls[i]? ≠ some .added ∧
    (calls[i]? = some none → 0 < x.blotters.length → s.calls[i]? = some (.shutting x.blotters.length)) ∧
    (calls[i]? = some none → x.blotters = [] → x.shards ≠ [] →
      s.calls[i]? = some (.shutting 0) ∨ s.calls[i]? = some .closing ∨ s.calls[i]? = some .panicked) := by
  have h := (LateInv.start ht hd front calls).steps hs
  have hget : ∀ c, calls[i]? = some c → ∃ p, s.calls[i]? = some p ∧ Stuck x.blotters.length x.shards.length c p := by
    intro c hc
    have hl : i < s.calls.length := by
      rw [h.len]; rcases List.getElem?_eq_some_iff.mp hc with ⟨g, _⟩; exact g
    exact ⟨_, List.getElem?_eq_getElem hl, h.pos i c _ hc (List.getElem?_eq_getElem hl)⟩
  refine ⟨fun ha => ?_, fun hc hn => ?_, fun hc hn hm => ?_⟩
  · have hl : i < calls.length := by
      rw [← h.len]; rcases List.getElem?_eq_some_iff.mp ha with ⟨g, _⟩; exact g
    obtain ⟨p, h1, h2⟩ := hget _ (List.getElem?_eq_getElem hl)
    rw [ha] at h1
    cases h1
    generalize calls[i] = c at h2
    cases c with
    | some doc => rcases h2 with h2 | ⟨id, h2⟩ | h2 <;> cases h2
    | none =>
      obtain ⟨g1, g2, g3⟩ := h2
      by_cases hn : 0 < x.blotters.length
      · exact absurd (g1 hn) (by simp)
      · by_cases hm : 0 < x.shards.length
        · rcases g2 (by omega) hm with g | g | g <;> cases g
        · rcases g3 (by omega) (by omega) with g | g | g <;> cases g
  · obtain ⟨p, h1, h2⟩ := hget _ hc
    rw [h1, h2.1 hn]
  · obtain ⟨p, h1, h2⟩ := hget _ hc
    rw [h1]
    have := h2.2.1 (by rw [hn]; rfl) (List.length_pos_iff.mpr hm)
    simpa using this

/-! ### What such calls do to the index -/

theorem closed_file (x : Front) : x.closed.file = Dmd.close x.dmds x.file ∧ x.closed.dmds.buf = [] ∧ x.closed.fnames = x.fnames ∧
    x.closed.dmds.flushRate = x.dmds.flushRate := by
  unfold Front.closed Dmd.close
  by_cases h : x.dmds.buf.length = 0
  · rw [if_pos h, if_pos h]; exact ⟨rfl, List.length_eq_zero_iff.mp h, rfl, rfl⟩
  · rw [if_neg h, if_neg h]; exact ⟨rfl, rfl, rfl, rfl⟩

/-- the file dmd when `m` documents have been numbered since it was written: with `b` so far, `q` times the whole buffer has been written -/
structure Late.Grown (b : Bytes) (rate m : Nat) (x : Front) : Prop where
  ex : ∃ ex q, x.file = some (b ++ ex) ∧ ex.length = 12 * (rate * q) ∧ m = rate * q + x.dmds.buf.length ∧ x.dmds.buf.length ≤ rate ∧
    (0 < q → 0 < x.dmds.buf.length)
  rate : x.dmds.flushRate.toNat = rate

theorem Late.Grown.add {b : Bytes} {rate m : Nat} {x x' : Front} (h : Late.Grown b rate m x) (hr : 0 < rate) {cwd : Bytes} {doc : Doc} {id : UInt32}
    (ha : x.add cwd doc = .ok (id, x')) : Late.Grown b rate (m + 1) x' := by
  obtain ⟨⟨ex, q, h1, h2, h3, h4, h5⟩, hrate⟩ := h
  have hlt := x.dmds.flushRate.toNat_lt
  simp only [Front.add, bind, Except.bind, pure, Except.pure] at ha
  cases hp : Fnames.addPath cwd x.fnames doc.path with
  | error e => rw [hp] at ha; cases ha
  | ok v =>
    rw [hp] at ha
    simp only [Dmd.add] at ha
    by_cases hb : UInt32.ofNat x.dmds.buf.length = x.dmds.flushRate
    · rw [if_pos hb] at ha
      cases ha
      have hbl : x.dmds.buf.length = rate := by
        have := congrArg UInt32.toNat hb
        rw [UInt32.toNat_ofNat', Nat.mod_eq_of_lt (by omega)] at this
        omega
      refine ⟨⟨ex ++ x.dmds.buf.flatMap Dmd.encode, q + 1, ?_, ?_, ?_, ?_, ?_⟩, hrate⟩
      · simp [Dmd.flush, h1]
      · rw [List.length_append, Dmd.encodeAll_length, h2, hbl, Nat.mul_add]; omega
      · simp only [Dmd.flush, List.nil_append, List.length_cons, List.length_nil, Nat.mul_add]; omega
      · simp only [Dmd.flush, List.nil_append, List.length_cons, List.length_nil]; omega
      · simp [Dmd.flush]
    · rw [if_neg hb] at ha
      cases ha
      have hbl : x.dmds.buf.length ≠ rate := by
        intro e
        apply hb
        apply UInt32.toNat_inj.mp
        rw [UInt32.toNat_ofNat', Nat.mod_eq_of_lt (by omega)]; omega
      refine ⟨⟨ex, q, h1, h2, ?_, ?_, ?_⟩, hrate⟩
      · simp only [List.length_append, List.length_cons, List.length_nil]; omega
      · simp only [List.length_append, List.length_cons, List.length_nil]; omega
      · simp

theorem Late.Grown.steps {u : Uni} {cwd : Bytes} {x : Indexer} {s t : Late.St} {b : Bytes} {rate : Nat} (hr : 0 < rate)
    (h : Late.Grown b rate s.numbered.length s.front) (hs : Late.Steps u cwd x s t) : Late.Grown b rate t.numbered.length t.front := by
  induction hs with
  | refl => exact h
  | step _ h2 ih =>
    cases h2 with
    | number g1 g2 =>
      have := ih.add hr g2
      simpa using this
    | _ => exact ih

theorem Late.Grown.count {b : Bytes} {rate m : Nat} {x : Front} (h : Late.Grown b rate m x) (hr : 0 < rate) :
    ∃ ex, x.file = some (b ++ ex) ∧ ex.length = 12 * (rate * ((m - 1) / rate)) := by
  obtain ⟨⟨ex, q, h1, h2, h3, h4, h5⟩, _⟩ := h
  refine ⟨ex, h1, ?_⟩
  rw [h2]
  congr 2
  by_cases hq : q = 0
  · subst hq
    rw [Nat.div_eq_of_lt (by omega)]
  · have := h5 (by omega)
    have e : m - 1 = rate * q + (x.dmds.buf.length - 1) := by omega
    rw [e, Nat.mul_add_div hr, Nat.div_eq_of_lt (by omega)]; omega

/-- **C85, what holds.**  Whatever calls are made after Close, the only file of the index that can change is dmd, and that as little: it stays as Close
left it until more documents have been numbered than fit the buffer; the records of all but the last bufferful are then appended. -/
theorem C85_dmd_partial {u : Uni} {cwd : Bytes} {x : Indexer} (t : Sched.St Blotter ShardIndexer (UInt32 × Bytes) Post) (front : Front) (b : Bytes)
    (hb : Dmd.close front.dmds front.file = some b) (hr : 0 < front.dmds.flushRate.toNat) (calls : List (Option Doc)) {s : Late.St}
    (hs : Late.Steps u cwd x (Late.start x t front calls) s) :
    ∃ ex, s.front.file = some (b ++ ex) ∧
      ex.length = 12 * (front.dmds.flushRate.toNat * ((s.numbered.length - 1) / front.dmds.flushRate.toNat)) := by
  obtain ⟨h1, h2, _, h4⟩ := closed_file front
  refine Late.Grown.count (Late.Grown.steps hr ?_ hs) hr
  refine ⟨⟨[], 0, ?_, rfl, ?_, ?_, by simp⟩, by rw [← h4]; rfl⟩
  · show front.closed.file = _
    rw [h1, hb, List.append_nil]
  · show 0 = _ + front.closed.dmds.buf.length
    rw [h2]; rfl
  · show front.closed.dmds.buf.length ≤ _
    rw [h2]; simp

theorem closed_rep {x : Front} {docs : List Document} (h : FrontRep x docs) : FrontRep x.closed docs := by
  obtain ⟨fs, h1, h2⟩ := h
  refine ⟨fs, ?_, ?_⟩
  · unfold Front.closed
    by_cases hb : x.dmds.buf.length = 0
    · rw [if_pos hb]; exact h1
    · rw [if_neg hb]; exact (Dmd.flush_inv h1).1
  · rw [(closed_file x).2.2.1]; exact h2

/-- calls of `Add` made one after the other get as far as the channel -/
theorem late_reaches {u : Uni} {cwd : Bytes} {x : Indexer} (core : Sched.St Blotter ShardIndexer (UInt32 × Bytes) Post) (late : List Doc) :
    ∀ (front : Front) (docs : List Document) (pre : List Late.Pos) (num : List Doc), FrontRep front docs →
    (docs ++ added cwd late).length + 1 < 2 ^ 32 → FewPaths ((docs ++ added cwd late).map fun s => s.path) →
    ∃ s, Late.Steps u cwd x ⟨core, front, pre ++ late.map .numbering, num⟩ s ∧ s.numbered = num ++ late ∧ FrontRep s.front (docs ++ added cwd late) := by
  induction late with
  | nil => intro front docs pre num h _ _; exact ⟨_, .refl, by simp, by simpa [added] using h⟩
  | cons d late ih =>
    intro front docs pre num h h1 h2
    have e : docs ++ added cwd (d :: late) = (docs ++ added cwd [d]) ++ added cwd late := by simp [added]
    rw [e] at h1 h2 ⊢
    have l1 : (docs ++ added cwd [d]).length = docs.length + 1 := by simp [added]
    obtain ⟨id, f, g1, g2, _⟩ := Front.add_rep h cwd d (by rw [List.length_append, l1] at h1; omega) (Fnames.FewPaths.mono (fun p hp => by rw [List.map_append]; exact List.mem_append_left _ hp) h2)
    obtain ⟨s, k1, k2, k3⟩ := ih f _ (pre ++ [.sending (id, d.start, d.dat.getD [])]) (num ++ [d]) g2 h1 h2
    refine ⟨s, ?_, by simp [k2], k3⟩
    have hst : Late.Step u cwd x ⟨core, front, pre ++ (d :: late).map .numbering, num⟩
        ⟨core, f, (pre ++ [.sending (id, d.start, d.dat.getD [])]) ++ late.map .numbering, num ++ [d]⟩ := by
      have := Late.Step.number (u := u) (x := x) (s := ⟨core, front, pre ++ (d :: late).map .numbering, num⟩) (i := pre.length) (doc := d)
        (by simp) g1
      simpa using this
    exact late_trans hst k1
where
  late_trans {u : Uni} {cwd : Bytes} {x : Indexer} {a b c : Late.St} (h : Late.Step u cwd x a b) (hs : Late.Steps u cwd x b c) :
      Late.Steps u cwd x a c := by
    induction hs with
    | refl => exact .step .refl h
    | step _ h2 ih => exact .step ih h2

theorem adds_rate {cwd : Bytes} {new : List Doc} : ∀ {f f' : Front} {rs : List Front.Req}, f.adds cwd new = .ok (rs, f') →
    f'.dmds.flushRate = f.dmds.flushRate := by
  induction new with
  | nil => intro f f' rs h; cases h; rfl
  | cons d new ih =>
    intro f f' rs h
    simp only [Front.adds, bind, Except.bind, pure, Except.pure] at h
    cases h1 : f.add cwd d with
    | error e => rw [h1] at h; cases h
    | ok v =>
      rw [h1] at h
      simp only at h
      cases h2 : v.2.adds cwd new with
      | error e => rw [h2] at h; cases h
      | ok v2 =>
        rw [h2] at h
        cases h
        rw [ih h2]
        simp only [Front.add, bind, Except.bind, pure, Except.pure] at h1
        cases hp : Fnames.addPath cwd f.fnames d.path with
        | error e => rw [hp] at h1; cases h1
        | ok p =>
          rw [hp] at h1
          cases h1
          simp only [Dmd.add]
          by_cases hb : UInt32.ofNat f.dmds.buf.length = f.dmds.flushRate
          · rw [if_pos hb]; rfl
          · rw [if_neg hb]

theorem late_dmd {u : Uni} {J : CfgCodec} {c : Config} (hU : Usable J c) (hfr : c.docFlushRate < 2 ^ 32) {x : Indexer} {docs : List Document}
    (h : IndexerRep u c x docs) (cwd : Bytes) (new late : List Doc) (hrate : x.front.dmds.flushRate = UInt32.ofNat c.docFlushRate.toNat)
    (hf : Fits u c (docs ++ added cwd (new ++ late))) (hl : late.length = c.docFlushRate.toNat + 1) :
    ∃ rs front k t b s, x.front.adds cwd new = .ok (rs, front) ∧ Sched.Steps (x.params u) k (x.start rs) t ∧ t.client = .done ∧
      Dmd.close front.dmds front.file = some b ∧ Late.Steps u cwd x (Late.start x t front (late.map some)) s ∧
      ∃ ex, s.front.file = some (b ++ ex) ∧ ex.length = 12 * c.docFlushRate.toNat := by
  have hadd : added cwd (new ++ late) = added cwd new ++ added cwd late := by simp [added]
  rw [hadd, ← List.append_assoc] at hf
  obtain ⟨front, g1, g2⟩ := Front.adds_rep cwd new h.front hf.left.ids hf.left.paths
  obtain ⟨k, t, h1, h2⟩ := session_runs hU h cwd new hf.left
  obtain ⟨s, k1, k2, k3⟩ := late_reaches (u := u) (x := x) (cwd := cwd) t late front.closed _ [] [] (closed_rep g2) hf.ids hf.paths
  obtain ⟨fs, hi, _⟩ := g2
  have hb := Dmd.close_inv hi
  have hs : Late.Steps u cwd x (Late.start x t front (late.map some)) s := by
    simpa [Late.start, Late.begin, Function.comp_def] using k1
  have hpos := hU.flush
  have hr : front.dmds.flushRate = x.front.dmds.flushRate := adds_rate g1
  have hr' : front.dmds.flushRate.toNat = c.docFlushRate.toNat := by
    rw [hr, hrate, UInt32.toNat_ofNat', Nat.mod_eq_of_lt (by omega)]
  obtain ⟨ex, e1, e2⟩ := C85_dmd_partial t front _ hb (by omega) (late.map some) hs
  refine ⟨_, front, k, t, _, s, g1, h1, h2, hb, hs, ex, e1, ?_⟩
  rw [e2, k2, hr', List.nil_append, hl, Nat.add_sub_cancel, Nat.div_self (by omega), Nat.mul_one]

theorem create_rate {c : Config} {x : Indexer} (h : Indexer.create c = .ok x) (h1 : 1 ≤ c.docFlushRate) (h2 : c.docFlushRate < 2 ^ 32) :
    x.front.dmds.flushRate = UInt32.ofNat c.docFlushRate.toNat := by
  unfold Indexer.create at h
  simp only [bind, Except.bind, pure, Except.pure, Dmd.newAdder, if_neg (show ¬ c.docFlushRate < 1 by omega)] at h
  cases h1 : Indexer.makeShards c with
  | error e => rw [h1] at h; cases h
  | ok n =>
    rw [h1] at h
    simp only at h
    cases h2 : c.tokenConfig.fromConfig with
    | error e => rw [h2] at h; cases h
    | ok _ =>
      rw [h2] at h
      simp only at h
      cases h4 : Indexer.makeBlotters c with
      | error e => rw [h4] at h; cases h
      | ok bs =>
        rw [h4] at h
        cases h
        show UInt32.ofNat (c.docFlushRate % 2 ^ 32).toNat = _
        congr 2
        omega

/-- **C85 fails.**  Documents added after Close get into the file dmd when there are enough of them: with one more than fit the buffer, dmd has a
whole bufferful of records of documents that have not been indexed and never will be. -/
theorem C85_false_dmd (u : Uni) {J : CfgCodec} {c : Config} (hU : Usable J c) (hfr : c.docFlushRate < 2 ^ 32) (cwd : Bytes) (new late : List Doc)
    (hf : Fits u c (added cwd (new ++ late))) (hl : late.length = c.docFlushRate.toNat + 1) :
    ∃ x rs front k t b s, Indexer.create c = .ok x ∧ x.front.adds cwd new = .ok (rs, front) ∧ Sched.Steps (x.params u) k (x.start rs) t ∧
      t.client = .done ∧ Dmd.close front.dmds front.file = some b ∧ Late.Steps u cwd x (Late.start x t front (late.map some)) s ∧
      ∃ ex, s.front.file = some (b ++ ex) ∧ ex.length = 12 * c.docFlushRate.toNat := by
  obtain ⟨x, hx, hr⟩ := create_rep (u := u) hU
  obtain ⟨rs, front, k, t, b, s, h⟩ := late_dmd hU hfr hr cwd new late (create_rate hx hU.flush hfr) (by simpa using hf) hl
  exact ⟨x, rs, front, k, t, b, s, hx, h⟩

/-- The hypotheses can be met: six documents after Close, where five fit the buffer. -/
theorem C85_nonvacuous : Usable ⟨fun _ => [], fun _ => .ok exQConfig⟩ exQConfig ∧
    Fits asciiUni exQConfig (added [47] ([⟨[112], 0, 0, none⟩] ++ List.replicate 6 ⟨[113], 0, 0, none⟩)) ∧
    (List.replicate 6 (⟨[113], 0, 0, none⟩ : Doc)).length = exQConfig.docFlushRate.toNat + 1 :=
  ⟨exUsable, ⟨by decide +kernel, by decide +kernel, by decide +kernel⟩, by decide⟩

end Dupi.Props
