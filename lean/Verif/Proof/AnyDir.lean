import Verif.Proof.AnyTable
import Verif.Proof.DamagedNext
import Verif.Proof.CrashAppend
import Verif.Proof.LiveMeta
/-! # Directories with any contents -/

namespace Dupi
open Spec

/-! ## Records -/

theorem getBE32_four {a b c d : UInt8} (r : Bytes) : getBE32 (a :: b :: c :: d :: r) = .ok (UInt32.ofNat (four [a, b, c, d])) := by
  have ha := a.toNat_lt
  have hb := b.toNat_lt
  have hc := c.toNat_lt
  have hd := d.toNat_lt
  have he : be32 (UInt32.ofNat (four [a, b, c, d])) = [a, b, c, d] := by
    simp only [be32, four, List.cons.injEq, and_true]
    refine ⟨?_, ?_, ?_, ?_⟩ <;> apply UInt8.toNat_inj.mp <;>
      simp only [UInt32.toNat_toUInt8, UInt32.toNat_shiftRight, UInt32.reduceToNat, Nat.reduceMod, Nat.shiftRight_eq_div_pow, UInt32.toNat_ofNat'] <;> omega
  have := getBE32_be32 (UInt32.ofNat (four [a, b, c, d])) r
  rw [he] at this
  exact this

theorem four_lt (bs : Bytes) : four bs < 2 ^ 32 := by
  unfold four
  split
  · rename_i a b c d
    have ha := a.toNat_lt
    have hb := b.toNat_lt
    have hc := c.toNat_lt
    have hd := d.toNat_lt
    omega
  · decide

/-- what is read of a record -/
theorem lookup_exact (f : Bytes) (id : UInt32) : (∀ p, RecordAt f id.toNat p → ∃ r, Dmd.lookup f id = .ok r ∧ r.fid.toNat = p) ∧
    (f.length < 12 * (id.toNat + 1) → Errs (Dmd.lookup f id)) := by
  have hdl : (f.drop (id.toNat * 12)).length = f.length - id.toNat * 12 := by simp
  constructor
  · rintro p ⟨h1, rfl⟩
    have hr : readFull (f.drop (id.toNat * Dmd.rcdSize)) Dmd.rcdSize = .ok ((f.drop (id.toNat * 12)).take 12, (f.drop (id.toNat * 12)).drop 12) := by
      simp only [Dmd.rcdSize, readFull]; rw [if_pos (by omega)]
    have h4 : (f.drop (12 * id.toNat)).take 4 = ((f.drop (id.toNat * 12)).take 12).take 4 := by
      rw [List.take_take, Nat.mul_comm]; rfl
    have hlt : ((f.drop (id.toNat * 12)).take 12).length = 12 := by rw [List.length_take]; omega
    rw [h4]
    have hfl := four_lt (((f.drop (id.toNat * 12)).take 12).take 4)
    match hq : (f.drop (id.toNat * 12)).take 12, hlt with
    | [a, b, c, d, e, f', g, h, i, j, k, l], _ =>
      rw [hq] at hr hfl
      refine ⟨⟨UInt32.ofNat (four [a, b, c, d]), UInt32.ofNat (four [e, f', g, h]), UInt32.ofNat (four [i, j, k, l])⟩, ?_, ?_⟩
      · simp only [Dmd.lookup, hr, bind, Except.bind, pure, Except.pure, List.drop, getBE32_four]
      · simp only [UInt32.toNat_ofNat', List.take]
        exact Nat.mod_eq_of_lt hfl
  · intro h
    have : ∃ e, readFull (f.drop (id.toNat * Dmd.rcdSize)) Dmd.rcdSize = fail e := by
      simp only [Dmd.rcdSize, readFull]
      rw [if_neg (by omega)]
      split
      · exact ⟨_, rfl⟩
      · exact ⟨_, rfl⟩
    obtain ⟨e, he⟩ := this
    exact ⟨e, by simp only [Dmd.lookup, he, bind, Except.bind]⟩

/-! ## Paths -/

theorem abs_exact {t : Fnames.Table} (hp : ∀ n ∈ t.map Fnames.says, n.2 < t.length) (v : UInt32) :
    (∀ cs, v.toNat < t.length → Leads (t.map Fnames.says) v.toNat cs → Fnames.abs t v = .ok (sep :: joinSlash cs)) ∧
    (t.length ≤ v.toNat → Fnames.abs t v = .error .panic) ∧
    (v.toNat < t.length → (¬ ∃ cs, Leads (t.map Fnames.says) v.toNat cs) →
      Fnames.abs t v = .error .diverge ∧ ∀ fuel, Fnames.absLoop t fuel v.toNat [] = .error .diverge) := by
  refine ⟨fun cs hv h => ?_, fun h => Fnames.abs_outside h, fun hv h => ?_⟩
  · have hne : t ≠ [] := by rintro rfl; simp at hv
    have hc := Fnames.leads_comps.mp h
    have hs := hc.short hne
    rw [Fnames.abs, Fnames.absLoop_comps hc hne _ _ (by omega)]
    simp [bind, Except.bind, pure, Except.pure, Fnames.revInPlace_eq]
  · have hl : ∀ fuel, Fnames.absLoop t fuel v.toNat [] = .error .diverge := by
      intro fuel
      refine Fnames.absLoop_lost ?_ fuel _ _ hv ?_
      · intro x hx
        exact hp (Fnames.says x) (List.mem_map.mpr ⟨x, hx, rfl⟩)
      · rintro ⟨cs, hc⟩
        exact h ⟨cs, Fnames.leads_comps.mpr hc⟩
    refine ⟨?_, hl⟩
    rw [Fnames.abs, hl]; rfl

theorem docid2Doc_exact {x : Index} {ns : List (Bytes × Nat)} (hx : x.fnames.map Fnames.says = ns) (hp : ∀ n ∈ ns, n.2 < ns.length) (id : UInt32) :
    (x.dmd.length < 12 * (id.toNat + 1) → Errs (x.docid2Doc id)) ∧
    ∀ p, RecordAt x.dmd id.toNat p →
      (∀ cs, p < ns.length → Leads ns p cs → ∃ a b, x.docid2Doc id = .ok (sep :: joinSlash cs, a, b)) ∧
      (ns.length ≤ p → x.docid2Doc id = .error .panic) ∧
      (p < ns.length → (¬ ∃ cs, Leads ns p cs) → x.docid2Doc id = .error .diverge) := by
  subst hx
  obtain ⟨h1, h2⟩ := lookup_exact x.dmd id
  have hl : (x.fnames.map Fnames.says).length = x.fnames.length := by simp
  rw [hl] at hp ⊢
  refine ⟨fun h => ?_, fun p hr => ?_⟩
  · obtain ⟨e, he⟩ := h2 h
    exact ⟨_, by simp only [Index.docid2Doc, he]; rfl⟩
  · obtain ⟨r, g1, g2⟩ := h1 p hr
    obtain ⟨k1, k2, k3⟩ := abs_exact hp r.fid
    rw [g2] at k1 k2 k3
    refine ⟨fun cs ha hb => ⟨r.start, r.stop, ?_⟩, fun ha => ?_, fun ha hb => ?_⟩
    · simp only [Index.docid2Doc, g1, k1 cs ha hb, bind, Except.bind, pure, Except.pure]
    · simp only [Index.docid2Doc, g1, k2 ha, bind, Except.bind]
    · simp only [Index.docid2Doc, g1, (k3 ha hb).1, bind, Except.bind]

/-! ## Heads -/

def entrySays (e : Int × UInt32) : Int × Nat := (e.1, e.2.toNat)

theorem readIix_exact (n : Nat) : ∀ (r : Bytes) (es : List (Int × Nat)),
    (∃ es', ShardIndex.readIix n r = .ok es' ∧ es'.map entrySays = es) ↔ Entries r es ∧ es.length = n := by
  induction n with
  | zero =>
    intro r es
    constructor
    · rintro ⟨es', h1, h2⟩
      simp only [ShardIndex.readIix, Except.ok.injEq] at h1
      subst h1; subst h2; exact ⟨trivial, rfl⟩
    · rintro ⟨h1, h2⟩
      exact ⟨[], rfl, (List.length_eq_zero_iff.mp h2).symm⟩
  | succ n ih =>
    intro r es
    constructor
    · rintro ⟨es', h1, h2⟩
      simp only [ShardIndex.readIix, bind, Except.bind] at h1
      cases a1 : readVarint r with
      | error e => rw [a1] at h1; cases h1
      | ok v =>
        obtain ⟨hd, r1⟩ := v
        simp only [a1] at h1
        cases a2 : readVarint r1 with
        | error e => rw [a2] at h1; cases h1
        | ok v =>
          obtain ⟨ct, r2⟩ := v
          simp only [a2] at h1
          by_cases hc : ct < 0 ∨ 2 ^ 32 ≤ ct
          · rw [if_pos hc] at h1; cases h1
          · rw [if_neg hc] at h1
            cases a3 : readFull r2 4 with
            | error e => rw [a3] at h1; cases h1
            | ok v =>
              obtain ⟨t, r3⟩ := v
              simp only [a3] at h1
              cases a4 : ShardIndex.readIix n r3 with
              | error e => rw [a4] at h1; cases h1
              | ok rest =>
                simp only [a4, pure, Except.pure, Except.ok.injEq] at h1
                obtain ⟨l, k, e1, n1, s1⟩ := (readVarint_exact _ _ _).mp a1
                obtain ⟨m, k', e2, n2, s2⟩ := (readVarint_exact _ _ _).mp a2
                obtain ⟨e3, n3⟩ := (readFull_exact _ _ _ _).mp a3
                obtain ⟨i1, i2⟩ := (ih r3 (rest.map entrySays)).mp ⟨rest, a4, rfl⟩
                subst h1
                subst h2
                have hct : (UInt32.ofNat ct.toNat).toNat = ct.toNat := by rw [UInt32.toNat_ofNat']; omega
                refine ⟨⟨l ++ m ++ t, r3, by rw [e1, e2, e3]; simp, ?_, i1⟩, by simpa using i2⟩
                refine ⟨l, m, t, k, k', rfl, n1, s1, n2, ?_, ?_, n3⟩
                · show signed k' = ((UInt32.ofNat ct.toNat).toNat : Int)
                  rw [← s2, hct]; omega
                · exact (UInt32.ofNat ct.toNat).toNat_lt
    · rintro ⟨h1, h2⟩
      cases es with
      | nil => cases h2
      | cons e es =>
        obtain ⟨a, r', e1, ⟨l, m, t, k, k', e2, n1, s1, n2, s2, hc, n3⟩, h3⟩ := h1
        obtain ⟨rest, i1, i2⟩ := (ih r' es).mpr ⟨h3, by simpa using h2⟩
        have a1 := (readVarint_exact r e.1 (m ++ (t ++ r'))).mpr ⟨l, k, by rw [e1, e2]; simp, n1, s1⟩
        have a2 := (readVarint_exact (m ++ (t ++ r')) (e.2 : Nat) (t ++ r')).mpr ⟨m, k', rfl, n2, s2.symm⟩
        have a3 := (readFull_exact (t ++ r') 4 t r').mpr ⟨rfl, n3⟩
        refine ⟨(e.1, UInt32.ofNat e.2) :: rest, ?_, ?_⟩
        · simp only [ShardIndex.readIix, bind, Except.bind, a1, a2]
          rw [if_neg (by omega)]
          simp only [a3, i1, pure, Except.pure, Int.toNat_natCast]
        · simp only [List.map_cons, i2, entrySays, UInt32.toNat_ofNat', Nat.mod_eq_of_lt hc]

theorem openShards_exact (srt : Sorter) (d : Dir) (n : Nat) : ∀ i, (∃ xs, Index.openShards srt d n i = .ok xs) ↔ ∀ k, k < n → ShardThere d (i + k) := by
  induction n with
  | zero => intro i; exact ⟨fun _ k hk => absurd hk (by omega), fun _ => ⟨[], rfl⟩⟩
  | succ n ih =>
    intro i
    constructor
    · rintro ⟨xs, h⟩ k hk
      obtain ⟨g1, g2⟩ := indexShards_inv (n + 1) h
      obtain ⟨iix, post, k1, k2, k3⟩ := g2 k _ (List.getElem?_eq_getElem (by rw [g1]; exact hk))
      simp only [ShardIndex.init, bind, Except.bind] at k3
      cases hr : ShardIndex.readIix 65536 iix with
      | error e => rw [hr] at k3; cases k3
      | ok es =>
        obtain ⟨m1, m2⟩ := (readIix_exact 65536 iix (es.map entrySays)).mp ⟨es, hr, rfl⟩
        exact ⟨iix, post, _, k1, k2, m1, m2⟩
    · intro h
      obtain ⟨iix, post, es, k1, k2, k3, k4⟩ := h 0 (by omega)
      obtain ⟨es', m1, _⟩ := (readIix_exact 65536 iix es).mpr ⟨k3, k4⟩
      obtain ⟨xs, hxs⟩ := (ih (i + 1)).mpr (fun k hk => by
        have := h (k + 1) (by omega)
        rwa [show i + (k + 1) = i + 1 + k by omega] at this)
      rw [Nat.add_zero] at k1 k2
      exact ⟨_, by simp only [Index.openShards, Dir.read, k1, k2, bind, Except.bind, m1, hxs, pure, Except.pure]; rfl⟩

/-- a shard that was opened -/
structure ShardRead (srt : Sorter) (d : Dir) (j : Nat) (s : ShardIndex) : Prop where
  heads : s.heads.length = 65536
  counts : s.counts.length = 65536
  perm : s.perm = srt s.counts
  list : ∀ (k : Nat) h, s.heads[k]? = some h → ListAt d j k s.file h
  back : ∀ (k : Nat) post h, ListAt d j k post h → post = s.file ∧ s.heads[k]? = some h

theorem shardRead {srt : Sorter} {d : Dir} {j : Nat} {s : ShardIndex} {iix post : Bytes} (h1 : d (.iix j) = some iix) (h2 : d (.pos j) = some post)
    (h3 : ShardIndex.init srt 65536 ⟨post, iix⟩ = .ok s) : ShardRead srt d j s := by
  simp only [ShardIndex.init, bind, Except.bind] at h3
  cases hr : ShardIndex.readIix 65536 iix with
  | error e => rw [hr] at h3; cases h3
  | ok es =>
    obtain ⟨m1, m2⟩ := (readIix_exact 65536 iix (es.map entrySays)).mp ⟨es, hr, rfl⟩
    have m2' : es.length = 65536 := by rw [← m2, List.length_map]
    simp only [hr, pure, Except.pure, Except.ok.injEq] at h3
    subst h3
    refine ⟨by simp only [List.length_map, m2'], by simp only [List.length_map, m2'], rfl, ?_, ?_⟩
    · intro k h hk
      simp only [List.getElem?_map, Option.map_eq_some_iff] at hk
      obtain ⟨e, he, rfl⟩ := hk
      exact ⟨iix, _, e.2.toNat, h1, h2, m1, m2, by rw [List.getElem?_map, he]; rfl⟩
    · rintro k post' h ⟨iix', es', c, k1, k2, k3, k4, k5⟩
      rw [h1] at k1; injection k1 with k1; subst k1
      rw [h2] at k2; injection k2 with k2; subst k2
      obtain ⟨es2, n1, n2⟩ := (readIix_exact 65536 iix es').mpr ⟨k3, k4⟩
      rw [hr] at n1; injection n1 with n1; subst n1
      subst n2
      refine ⟨rfl, ?_⟩
      rw [List.getElem?_map, Option.map_eq_some_iff] at k5
      obtain ⟨e, he, he'⟩ := k5
      simp only [List.getElem?_map, he, Option.map_some]
      rw [entrySays, Prod.mk.injEq] at he'
      rw [he'.1]

theorem opened {J : CfgCodec} {srt : Sorter} {d : Dir} {x : Index} (h : Index.open J srt d = .ok x) :
    0 ≤ x.config.numShards ∧ x.shards.length = x.config.numShards.toNat ∧ ∀ (j : Nat) s, x.shards[j]? = some s → ShardRead srt d j s := by
  obtain ⟨h1, h2, ⟨f, h3, h3'⟩, h4⟩ := openIndex_inv h
  obtain ⟨g1, g2⟩ := indexShards_inv _ h4
  refine ⟨?_, g1, fun j s hs => ?_⟩
  · apply Classical.byContradiction
    intro hc
    simp only [Index.open, Dir.read, bind, Except.bind, h1, h2, h3, h3'] at h
    rw [if_pos (by omega)] at h
    cases h
  · obtain ⟨iix, post, k1, k2, k3⟩ := g2 j s hs
    rw [Nat.zero_add] at k1 k2
    exact shardRead k1 k2 k3

/-! ## Reading such an index -/

theorem readStateAt_any {srt : Sorter} (hsrt : IsSorter srt) {d : Dir} {j : Nat} {s : ShardIndex} (h : ShardRead srt d j s) {a : Nat} (ha : a < 65536) :
    ∃ rs, s.readStateAt a = .ok rs ∧ rs.at_ = a ∧ Query.AnyRs s rs := by
  have hpm := hsrt.perm s.counts
  have hpl : s.perm.length = 65536 := by rw [h.perm, hpm.length_eq, List.length_range, h.counts]
  have hb : s.perm[a]? = some s.perm[a] := List.getElem?_eq_getElem (by omega)
  have hlt : s.perm[a] < 65536 := by
    have : s.perm[a] ∈ srt s.counts := h.perm ▸ List.getElem_mem _
    have := hpm.mem_iff.mp this
    rw [List.mem_range, h.counts] at this
    exact this
  have hh := List.getElem?_eq_getElem (l := s.heads) (by rw [h.heads]; exact hlt)
  have hc := List.getElem?_eq_getElem (l := s.counts) (by rw [h.counts]; exact hlt)
  refine ⟨_, by simp only [ShardIndex.readStateAt, ShardIndex.blotAt, hb, bind, Except.bind, ShardIndex.readStateForBlotAt, hh, hc]; rfl, rfl, ?_⟩
  refine ⟨ha, rfl, by simp [Posts.new], by simp [Posts.new], .inr ⟨_, List.getElem_mem _, 0, rfl⟩⟩

theorem initStates_any (l : List ShardIndex) (h : ∀ s ∈ l, ∃ rs, s.readStateAt 0 = .ok rs ∧ rs.at_ = 0 ∧ Query.AnyRs s rs) :
    ∃ ss, Index.initStates l = .ok ss ∧ ss.length = l.length ∧ (∀ (j : Nat) rs, ss[j]? = some (some rs) → rs.at_ = 0 ∧ ∃ s, l[j]? = some s ∧ Query.AnyRs s rs) := by
  induction l with
  | nil => exact ⟨[], rfl, rfl, by simp⟩
  | cons s l ih =>
    obtain ⟨ss, i1, i2, i3⟩ := ih (fun s hs => h s (List.mem_cons_of_mem _ hs))
    obtain ⟨rs, k1, k2, k3⟩ := h s List.mem_cons_self
    refine ⟨some rs :: ss, by simp only [Index.initStates, k1, i1, bind, Except.bind, pure, Except.pure], by simp [i2], ?_⟩
    · intro j r hj
      cases j with
      | zero => simp at hj; subst hj; exact ⟨k2, s, rfl, k3⟩
      | succ j => simpa using i3 j r (by simpa using hj)

theorem startQuery_any {srt : Sorter} (hsrt : IsSorter srt) {d : Dir} {x : Index} {n : Nat} (hl : x.shards.length = n) (h0 : 0 < n) (hn : n < 2 ^ 32)
    (h : ∀ (j : Nat) s, x.shards[j]? = some s → ShardRead srt d j s) :
    ∃ q, x.startQuery = .ok q ∧ Query.AnyQuery x n q := by
  obtain ⟨ss, h1, h2, h3⟩ := initStates_any x.shards (fun s hs => by
    obtain ⟨j, hj⟩ := List.getElem?_of_mem hs
    exact readStateAt_any hsrt (h j s hj) (by decide))
  refine ⟨_, by simp only [Index.startQuery, h1, bind, Except.bind, pure, Except.pure]; rfl, ⟨by simp [QState.setMax, hl], by simp [QState.setMax, h2, hl], ?_, ?_⟩⟩
  · simp only [QState.setMax]
    rcases Query.maxLoop_spec ss 0 0 0 (by omega) with ⟨g1, _⟩ | ⟨j, s, g1, g2, _⟩
    · rw [g1]; exact h0
    · rw [g2]
      have := (List.getElem?_eq_some_iff.mp g1).1
      simp; omega
  · intro j rs hj
    exact (h3 j rs hj).2

/-! ## Opening it to append -/

theorem readUvarintLax_digits (r : Bytes) : ∀ (i x : Nat), i < 10 → (Poster.readUvarintLax r i x).2 = [] ∨
    ∃ cs b, r = cs ++ b :: (Poster.readUvarintLax r i x).2 ∧ i + cs.length < 10 ∧ (∀ c ∈ cs, 128 ≤ c.toNat) ∧ (b.toNat < 128 ∨ i + cs.length = 9) := by
  induction r with
  | nil => intro i x hi; left; unfold Poster.readUvarintLax; rw [if_neg (by simp only [maxVarintLen64]; omega)]
  | cons b r ih =>
    intro i x hi
    unfold Poster.readUvarintLax
    rw [if_neg (by simp only [maxVarintLen64]; omega)]
    simp only []
    by_cases hb : b < 0x80
    · have hb' : b.toNat < 128 := by simpa [UInt8.lt_iff_toNat_lt] using hb
      rw [if_pos hb]
      right
      by_cases h9 : i = maxVarintLen64 - 1 ∧ b > 1
      · rw [if_pos h9]; exact ⟨[], b, rfl, by simpa using hi, by simp, .inl hb'⟩
      · rw [if_neg h9]; exact ⟨[], b, rfl, by simpa using hi, by simp, .inl hb'⟩
    · have hb' : 128 ≤ b.toNat := by
        have : ¬ b.toNat < 128 := by simpa [UInt8.lt_iff_toNat_lt] using hb
        omega
      rw [if_neg hb]
      by_cases h9 : i = 9
      · right
        subst h9
        refine ⟨[], b, ?_, by simp, by simp, .inr rfl⟩
        have : ∀ y, (Poster.readUvarintLax r (9 + 1) y).2 = r := by
          intro y
          unfold Poster.readUvarintLax
          rw [if_pos rfl]
        rw [this]; rfl
      · rcases ih (i + 1) (x ||| ((b &&& 0x7f).toNat <<< (7 * i))) (by omega) with h | ⟨cs, c, h1, h2, h3, h4⟩
        · exact .inl h
        · refine .inr ⟨b :: cs, c, by rw [List.cons_append, ← h1], by simp; omega, ?_, ?_⟩
          · intro c' hc'
            rcases List.mem_cons.mp hc' with rfl | hc'
            · exact hb'
            · exact h3 c' hc'
          · rcases h4 with h4 | h4
            · exact .inl h4
            · exact .inr (by simp; omega)

theorem read4_inv {r b r' : Bytes} (h : Poster.read4 r = .ok (b, r')) : r = b ++ r' ∧ b.length = 4 := by
  match r with
  | [] | [_] | [_, _] | [_, _, _] => cases h
  | b0 :: b1 :: b2 :: b3 :: r =>
    simp only [Poster.read4, readByte, bind, Except.bind, pure, Except.pure, Except.ok.injEq, Prod.mk.injEq] at h
    obtain ⟨rfl, rfl⟩ := h
    exact ⟨rfl, rfl⟩

theorem read4_tame (r : Bytes) : Tame (Poster.read4 r) := by
  match r with
  | [] | [_] | [_, _] | [_, _, _] => exact .inr ⟨_, rfl⟩
  | b0 :: b1 :: b2 :: b3 :: r => exact .inl ⟨_, rfl⟩

theorem initAppend_any (r : Bytes) : Errs (Poster.initAppend r) ∨ ∃ p r' a, Poster.initAppend r = .ok (p, r') ∧ r = a ++ r' ∧ LaxEntryAs a p.head ∧ p.link = -1 := by
  simp only [Poster.initAppend, bind, Except.bind]
  rcases readVarint_tame r with ⟨⟨hd, r1⟩, h1⟩ | ⟨e, h1⟩
  · rw [h1]
    simp only []
    obtain ⟨l, k, e1, n1, s1⟩ := (readVarint_exact _ _ _).mp h1
    by_cases hc : (Poster.readVarintLax r1).1 < 0 ∨ 2 ^ 32 ≤ (Poster.readVarintLax r1).1
    · rw [if_pos hc]; exact .inl ⟨_, rfl⟩
    · rw [if_neg hc]
      rcases read4_tame (Poster.readVarintLax r1).2 with ⟨⟨b, r2⟩, h2⟩ | ⟨e, h2⟩
      · rw [h2]
        simp only []
        obtain ⟨e2, n2⟩ := read4_inv h2
        match b, n2 with
        | [b0, b1, b2, b3], _ =>
          right
          have hlax : (Poster.readVarintLax r1).2 = (Poster.readUvarintLax r1 0 0).2 := rfl
          rcases readUvarintLax_digits r1 0 0 (by decide) with h | ⟨cs, c, g1, g2, g3, g4⟩
          · rw [hlax, h] at e2; cases e2
          · refine ⟨_, r2, l ++ (cs ++ [c]) ++ [b0, b1, b2, b3], by simp only [getBE32, pure, Except.pure]; rfl, ?_, ?_, rfl⟩
            · rw [← hlax, e2] at g1
              rw [e1, g1]; simp
            · exact ⟨l, cs ++ [c], _, k, rfl, n1, s1, ⟨cs, c, rfl, by omega, g3, by rwa [Nat.zero_add] at g4⟩, rfl⟩
      · rw [h2]; exact .inl ⟨_, rfl⟩
  · rw [h1]; exact .inl ⟨_, rfl⟩

theorem appendIix_any (n : Nat) : ∀ (r : Bytes), Errs (ShardIndexer.readIix n r) ∨
    ∃ ps, ShardIndexer.readIix n r = .ok ps ∧ ps.length = n ∧ LaxHeads r (ps.map Poster.head) ∧ ∀ p ∈ ps, p.link = -1 := by
  induction n with
  | zero => intro r; exact .inr ⟨[], rfl, rfl, trivial, by simp⟩
  | succ n ih =>
    intro r
    simp only [ShardIndexer.readIix, bind, Except.bind]
    rcases initAppend_any r with ⟨e, h⟩ | ⟨p, r', a, h1, h2, h3, h4⟩
    · rw [h]; exact .inl ⟨e, rfl⟩
    · rw [h1]
      simp only []
      rcases ih r' with ⟨e, h⟩ | ⟨ps, g1, g2, g3, g4⟩
      · rw [h]; exact .inl ⟨e, rfl⟩
      · rw [g1]
        refine .inr ⟨p :: ps, rfl, by simp [g2], ⟨a, r', h2, h3, g3⟩, ?_⟩
        intro q hq
        rcases List.mem_cons.mp hq with rfl | hq
        · exact h4
        · exact g4 q hq

theorem indexerShards_any (d : Dir) (n : Nat) : ∀ i, (∀ k, i ≤ k → k < i + n → Walkable d k) → Tame (Indexer.openShards d n i) := by
  induction n with
  | zero => intro i _; exact .ok _
  | succ n ih =>
    intro i h
    have hd : ∀ f b, d.read f = .ok b → d f = some b := by
      intro f b hb
      unfold Dir.read at hb
      split at hb
      · cases hb
      · rename_i e; injection hb with hb; rw [e, hb]
    refine (read_tame d _).bind fun iix h1 => (read_tame d _).bind fun post h2 => ?_
    refine Tame.bind ?_ fun x _ => (ih (i + 1) fun k k1 k2 => h k (by omega) (by omega)).bind fun _ _ => .ok _
    refine Tame.bind (m := ShardIndexer.readIix ShardIndexer.nBlots iix) ?_ ?_
    · rcases appendIix_any ShardIndexer.nBlots iix with h | ⟨ps, h, _⟩
      · exact .inr h
      · exact .inl ⟨ps, h⟩
    · intro ps hps
      rcases appendIix_any ShardIndexer.nBlots iix with ⟨e, g⟩ | ⟨ps', g1, g2, g3, g4⟩
      · rw [hps] at g; cases g
      · rw [hps] at g1; injection g1 with g1; subst g1
        refine (readLinks_any post ps fun p hp => ⟨g4 p hp, ?_⟩).bind fun _ _ => .ok _
        exact h i (Nat.le_refl _) (by omega) iix post _ (hd _ _ h1) (hd _ _ h2) g3 (by rw [List.length_map, g2]) p.head (List.mem_map.mpr ⟨p, hp, rfl⟩)

theorem fromConfig_tame (c : TokenConfig) : Tame c.fromConfig := by
  unfold TokenConfig.fromConfig
  split
  · exact .ok _
  · exact .fail _

end Dupi
