import Verif.Import.TreeLemmas

/-! # Correctness of the balanced builder

The definitions in this file belong to proofs; they model no code.
-/

namespace Unixfs.Import
open Unixfs.Spec

theorem listP_snoc {P : T → Prop → Prop} {m : Prop} : ∀ {ts : List T}, ts ≠ [] → ListP P ts m →
    ∃ pre last, ts = pre ++ [last] ∧ (∀ t ∈ pre, P t True) ∧ P last m
  | [], h, _ => absurd rfl h
  | [t], _, h => ⟨[], t, rfl, by simp, h⟩
  | t :: t' :: ts, _, h => by
    obtain ⟨pre, last, he, hp, hl⟩ := listP_snoc (ts := t' :: ts) (by simp) h.2
    exact ⟨t :: pre, last, by simp [he], by
      intro x hx
      rcases List.mem_cons.mp hx with rfl | hx
      · exact h.1
      · exact hp x hx, hl⟩

namespace Balanced

/-- Full tree of height `d`. -/
def Full (m : Nat) : Nat → T → Prop
  | 0, t => ∃ c, t = .leaf c
  | d + 1, t => ∃ ts, t = .node ts ∧ ts.length = m ∧ ∀ t ∈ ts, Full m d t

/-- Left-filled tree of height `d`. -/
def Left (m : Nat) : Nat → T → Prop
  | 0, t => ∃ c, t = .leaf c
  | d + 1, t => ∃ pre last, t = .node (pre ++ [last]) ∧ pre.length < m ∧ (∀ t ∈ pre, Full m d t) ∧ Left m d last

theorem Full.left {m : Nat} (hm : 0 < m) : ∀ {d : Nat} {t : T}, Full m d t → Left m d t
  | 0, _, h => h
  | d + 1, t, ⟨ts, he, hl, hf⟩ => by
    have hne : ts ≠ [] := by intro h; subst h; simp at hl; omega
    obtain ⟨pre, last, hp⟩ : ∃ pre last, ts = pre ++ [last] := ⟨ts.dropLast, ts.getLast hne, (List.dropLast_concat_getLast hne).symm⟩
    subst hp
    refine ⟨pre, last, he, by simp at hl; omega, fun x hx => hf x (by simp [hx]), ?_⟩
    exact Full.left hm (hf last (by simp))

theorem chunksL_length_full {m d : Nat} (ih : ∀ t, Full m d t → t.chunks.length = m ^ d) :
    ∀ (ts : List T), (∀ t ∈ ts, Full m d t) → (T.chunksL ts).length = ts.length * m ^ d
  | [], _ => by simp [T.chunksL]
  | t :: ts, h => by
    simp only [T.chunksL, List.length_append, List.length_cons]
    rw [ih t (h t (by simp)), chunksL_length_full ih ts (fun x hx => h x (by simp [hx]))]
    ring

theorem Full.count {m : Nat} : ∀ {d : Nat} {t : T}, Full m d t → t.chunks.length = m ^ d
  | 0, _, ⟨c, h⟩ => by subst h; simp [T.chunks]
  | d + 1, _, ⟨ts, he, hl, hf⟩ => by
    subst he
    simp only [T.chunks]
    rw [chunksL_length_full (fun t h => Full.count h) ts hf, hl]
    ring

theorem Full.pos {m : Nat} (hm : 0 < m) : ∀ {d : Nat} {t : T}, Full m d t → t.Pos
  | 0, _, ⟨c, h⟩ => by subst h; trivial
  | d + 1, _, ⟨ts, he, hl, hf⟩ => by
    subst he
    refine ⟨?_, (T.posL_iff ts).mpr (fun t ht => Full.pos hm (hf t ht))⟩
    intro h; subst h; simp at hl; omega

theorem Left.pos {m : Nat} (hm : 0 < m) : ∀ {d : Nat} {t : T}, Left m d t → t.Pos
  | 0, _, ⟨c, h⟩ => by subst h; trivial
  | d + 1, _, ⟨pre, last, he, hl, hf, hll⟩ => by
    subst he
    refine ⟨by simp, (T.posL_iff _).mpr ?_⟩
    intro t ht
    rcases List.mem_append.mp ht with ht | ht
    · exact (hf t ht).pos hm
    · simp only [List.mem_singleton] at ht; subst ht; exact Left.pos hm hll

/-- Shape of children at height `d`. -/
def ShapeP (m d : Nat) (t : T) (more : Prop) : Prop := Left m d t ∧ (more → Full m d t)

theorem ChildOK.imp {lt : UInt32} {P Q : T → Prop → Prop} {db : DB} {r}
    (h : ∀ t m, P t m → Q t m) (hr : ChildOK lt P db r) : ChildOK lt Q db r := by
  cases r with
  | error e => exact hr
  | ok q =>
    obtain ⟨⟨b, sz⟩, db'⟩ := q
    obtain ⟨t, cs, new, h1, h2, h3, h4, h5, h6, h7⟩ := hr
    exact ⟨t, cs, new, h1, h2, h3, h4, h5, h _ _ h6, h7⟩

/-- Result of `fillNodeRec` started with the full children `pre`. -/
def FillOK (d : Nat) (pre : List T) (db : DB) : Except Err ((Built × UInt64) × DB) → Prop
  | .ok ((b, sz), db') => ∃ ts cs new, Adv db cs new db' ∧
      b = ⟨(T.node (pre ++ ts)).toNode (db.cfg TFile), none⟩ ∧ sz = (T.node (pre ++ ts)).size ∧
      T.chunksL ts = cs ∧ cs ≠ [] ∧ ShapeP db.maxlinks (d + 1) (.node (pre ++ ts)) db'.More ∧
      new.map Built.node = T.nodesL (db.cfg TFile) ts ∧
      refs new = (if db.fstore then refsFrom (db.cfg TFile).leafNode db.offset cs else [])
  | .error e => Fail db e

/-- How `fillNodeRec d` builds a child. -/
def childOf : Nat → DB → Except Err ((Built × UInt64) × DB)
  | 0 => fun db => db.newLeafDataNode TFile
  | d + 1 => fun db => fillNodeRec d none db

theorem fillNodeRec_eq (d : Nat) : fillNodeRec d = fillWith (childOf d) := by
  cases d <;> rfl

/-- `fillNodeRec`, given what its children do. -/
theorem fill_step (d : Nat) (pre : List T) (db : DB) (node : Option FSN)
    (hnode : node.getD (FSN.new db TFile) = (FSN.new db TFile).addTrees (db.cfg TFile) pre)
    (hm : pre.length < db.maxlinks) (hpre : ∀ t ∈ pre, Full db.maxlinks d t)
    (hi : db.Inv) (hmore : db.More)
    (hchild : ∀ db', db'.maxlinks = db.maxlinks → db'.Inv → db'.More →
      ChildOK TFile (ShapeP db.maxlinks d) db'
        (childOf d db')) :
    FillOK d pre db (fillNodeRec d node db) := by
  rw [fillNodeRec_eq]
  unfold fillWith
  simp only [hnode]
  generalize childOf d = child at hchild
  have hnum : ((FSN.new db TFile).addTrees (db.cfg TFile) pre).numChildren = pre.length := by
    rw [FSN.numChildren_addTrees]; simp [FSN.numChildren, FSN.new, FSNode.new, FSNode.numChildren, FSNode.updateFilesize]
  rw [hnum]
  have hloop := fillLoop_spec TFile (ShapeP db.maxlinks d) child
    (fun db' => db'.maxlinks = db.maxlinks) (fun h a => by rw [a.maxlinks, h])
    (fun db' h1 h2 h3 => hchild db' h1 h2 h3) (fun t m hm h => ⟨h.1, fun _ => h.2 hm⟩)
    (db.maxlinks - pre.length) ((FSN.new db TFile).addTrees (db.cfg TFile) pre) db rfl hi
  cases hres : fillLoop child (db.maxlinks - pre.length) ((FSN.new db TFile).addTrees (db.cfg TFile) pre) db with
  | error e => rw [hres] at hloop; exact hloop
  | ok q =>
    obtain ⟨fsn', db'⟩ := q
    rw [hres] at hloop
    obtain ⟨ts, cs, new, hadv, hfsn, hchunks, hlen, hor, hne, -, hLP, hnodes, hrefs⟩ := hloop
    rw [← FSN.addTrees_append] at hfsn
    have htyp : fsn'.file.format.typ.isSome := by
      rw [hfsn]; simp only [FSN.addTrees]; rw [addSizes_typ]; rfl
    simp only [FSN.commit_of_typ _ htyp]
    have hts : ts ≠ [] := hne (by omega) hmore
    obtain ⟨init, last, hsplit, hPi, hPl⟩ := listP_snoc hts hLP
    have hcs : cs ≠ [] := by
      intro hc
      -- children carry data
      rw [← hchunks, hsplit, T.chunksL_append] at hc
      have h2 := (List.append_eq_nil_iff.mp hc).2
      simp only [T.chunksL, List.append_nil] at h2
      have key : ∀ {d t}, Left db.maxlinks d t → t.chunks ≠ [] := by
        intro d
        induction d with
        | zero => intro t ⟨c, h⟩; subst h; simp [T.chunks]
        | succ d ih =>
          intro t ⟨pre, last, h, _, _, hl⟩ hc
          subst h
          simp only [T.chunks, T.chunksL_append, List.append_eq_nil_iff, T.chunksL, List.append_nil] at hc
          exact ih hl hc.2
      exact key hPl.1 h2
    refine ⟨ts, cs, new, hadv, ?_, ?_, hchunks, hcs, ?_, hnodes, hrefs⟩
    · subst hfsn
      simp [FSN.addTrees, T.toNode, FSN.new, DB.cfg, Cfg.pbBuilder, DB.pbBuilder]
    · subst hfsn
      simp only [FSN.fileSize, FSN.addTrees, FSN.new]
      rw [fileSize_addSizes, sum_ofNat]; rfl
    · constructor
      · refine ⟨pre ++ init, last, by simp [hsplit], ?_, ?_, hPl.1⟩
        · rw [hsplit] at hlen; simp at hlen ⊢; omega
        · intro t ht
          rcases List.mem_append.mp ht with ht | ht
          · exact hpre t ht
          · exact (hPi t ht).2 trivial
      · intro hmo
        refine ⟨pre ++ ts, rfl, ?_, ?_⟩
        · rcases hor with h | h
          · simp; omega
          · exact absurd hmo h
        · intro t ht
          rcases List.mem_append.mp ht with ht | ht
          · exact hpre t ht
          · rw [hsplit] at ht
            rcases List.mem_append.mp ht with ht | ht
            · exact (hPi t ht).2 trivial
            · simp only [List.mem_singleton] at ht; subst ht; exact hPl.2 hmo

theorem FillOK.child {d : Nat} {db : DB} {r} (h : FillOK d [] db r) : ChildOK TFile (ShapeP db.maxlinks (d + 1)) db r := by
  cases r with
  | error e => exact h
  | ok q =>
    obtain ⟨⟨b, sz⟩, db'⟩ := q
    obtain ⟨ts, cs, new, h1, h2, h3, h4, h5, h6, h7, h8⟩ := h
    simp only [List.nil_append] at h2 h3 h6
    refine ⟨.node ts, cs, new, h1, by rw [h2], h3, by simp [T.chunks, h4], h5, h6, ?_, ?_⟩
    · rw [h7, h2]; simp [T.nodes]
    · rw [refs_append, h8, h2]; simp [refs]

theorem child_spec (m : Nat) (hm : 0 < m) (d : Nat) : ∀ (db : DB), db.maxlinks = m → db.Inv → db.More →
    ChildOK TFile (ShapeP m d) db
      (childOf d db) := by
  induction d with
  | zero =>
    intro db _ hi hmore
    exact ChildOK.imp (fun t m h => ⟨h, fun _ => h⟩) (newLeafDataNode_spec db TFile hi hmore)
  | succ d ih =>
    intro db hdb hi hmore
    subst hdb
    exact FillOK.child (fill_step d [] db none (by simp [FSN.addTrees_nil]) hm (by simp) hi hmore
      (fun db' h1 h2 h3 => ih db' h1 h2 h3))

theorem fill_spec (d : Nat) (pre : List T) (db : DB) (node : FSN)
    (hnode : node = (FSN.new db TFile).addTrees (db.cfg TFile) pre)
    (hm : pre.length < db.maxlinks) (hpre : ∀ t ∈ pre, Full db.maxlinks d t) (hi : db.Inv) (hmore : db.More) :
    FillOK d pre db (fillNodeRec d (some node) db) :=
  fill_step d pre db (some node) (by simp [hnode]) hm hpre hi hmore
    (fun db' h1 h2 h3 => child_spec db.maxlinks (by omega) d db' h1 h2 h3)

/-- The state of `Layout`'s loop: the root covers what was consumed since `db0`. -/
def LayInv (db0 : DB) (d : Nat) (root : Built) (fs : UInt64) (db : DB) : Prop :=
  ∃ t cs new, Adv db0 cs new db ∧ root.node = t.toNode (db0.cfg TFile) ∧ fs = t.size ∧ t.chunks = cs ∧
    ShapeP db0.maxlinks d t db.More ∧ (d ≠ 0 → db0.maxlinks ^ (d - 1) < cs.length) ∧
    new.map Built.node ++ [root.node] = t.nodes (db0.cfg TFile) ∧
    refs (new ++ [root]) = (if db0.fstore then refsFrom (db0.cfg TFile).leafNode db0.offset cs else [])

theorem adv_nil_more {db db' : DB} {new} (a : Adv db [] new db') : db'.More ↔ db.More := by
  have := a.pend
  unfold DB.More; rw [a.srcEnd]; simp only [List.nil_append] at this; rw [this]

/-- One round of `Layout`'s loop. -/
theorem lay_step {db0 : DB} {d : Nat} {root : Built} {fs : UInt64} {db : DB} (h2 : 2 ≤ db0.maxlinks)
    (hinv : LayInv db0 d root fs db) (hmore : db.More) :
    (∃ e, (FSN.new db TFile).addChild root fs db = .error e ∧ Fail db0 e) ∨
    ∃ newRoot db1, (FSN.new db TFile).addChild root fs db = .ok (newRoot, db1) ∧
      match fillNodeRec d (some newRoot) db1 with
      | .error e => Fail db0 e
      | .ok ((root', fs'), db') => LayInv db0 (d + 1) root' fs' db' ∧ db'.pend.length < db.pend.length := by
  obtain ⟨t, cs, new, hadv, hroot, hfs, hchunks, hshape, hcount, hnodes, hrefs⟩ := hinv
  rcases add_spec db root hadv.inv with ⟨db1, h1, hadd⟩ | ⟨h1, hb⟩
  swap
  · left
    exact ⟨.addFailed, by simp [FSN.addChild, h1], .inr (.inr ⟨rfl, fun hn => hb (hadv.budget hn)⟩)⟩
  right
  refine ⟨{ FSN.new db TFile with links := (FSN.new db TFile).links ++ [makeLink [] root.node]
                                  file := (FSN.new db TFile).file.addBlockSize fs }, db1, by simp only [FSN.addChild, h1], ?_⟩
  have hadv1 := hadv.trans hadd
  have hmax : db1.maxlinks = db0.maxlinks := hadv1.maxlinks
  have hcfg : db1.cfg TFile = db0.cfg TFile := hadv1.cfg TFile
  have hmore1 : db1.More := (adv_nil_more hadd).mpr hmore
  have hpb : ∀ a : DB, a.pbBuilder = (a.cfg TFile).pbBuilder := fun a => rfl
  have hf := fill_spec d [t] db1
    { FSN.new db TFile with links := (FSN.new db TFile).links ++ [makeLink [] root.node]
                            file := (FSN.new db TFile).file.addBlockSize fs }
    (by simp [FSN.addTrees, T.toLinks, addSizes, FSN.new, hroot, hfs, hcfg, hpb, hadv.cfg TFile])
    (by rw [hmax]; simp; omega) (by rw [hmax]; simpa using hshape.2 hmore) hadd.inv hmore1
  cases hres : fillNodeRec d (some
    { FSN.new db TFile with links := (FSN.new db TFile).links ++ [makeLink [] root.node]
                            file := (FSN.new db TFile).file.addBlockSize fs }) db1 with
  | error e => rw [hres] at hf; exact Fail.of_adv hadv1 hf
  | ok q =>
    obtain ⟨⟨b, sz⟩, db'⟩ := q
    rw [hres] at hf
    obtain ⟨ts, cs', new', hadv', hb, hsz, hch', hcs', hsh, hnd, hrf⟩ := hf
    simp only [List.append_nil] at hadv1
    refine ⟨⟨.node ([t] ++ ts), cs ++ cs', (new ++ [root]) ++ new', ?_, ?_, hsz, ?_, ?_, ?_, ?_, ?_⟩, ?_⟩
    · simpa using hadv1.trans hadv'
    · rw [hb, hcfg]
    · simp [T.chunks, T.chunksL, hchunks, hch']
    · rw [← hmax]; exact hsh
    · intro _
      have hc := (hshape.2 hmore).count
      rw [hchunks] at hc
      simp only [Nat.add_sub_cancel, List.length_append]
      have := List.length_pos_iff.mpr hcs'
      omega
    · rw [hb, hcfg]
      simp only [List.map_append, List.map_cons, List.map_nil]
      rw [hnodes, hnd, hcfg]
      simp [T.nodes, T.nodesL]
    · rw [refs_append, refs_append, hrefs, hrf, hadv1.fstore, hcfg, hb]
      by_cases hfst : db0.fstore
      · simp only [hfst, if_true]
        rw [refsFrom_append, hadv1.offset]
        simp [hfst, refs]
      · simp [hfst, refs]
    · have hp1 := hadd.pend
      have hp2 := hadv'.pend
      simp only [List.nil_append] at hp1
      rw [hp1, hp2, List.length_append]
      have := List.length_pos_iff.mpr hcs'
      omega

theorem layInv_done {db0 : DB} {d root fs} {db : DB} (h : LayInv db0 d root fs db) (hi : db.Inv) :
    LayInv db0 d root fs db.done.2 := by
  obtain ⟨t, cs, new, hadv, h1, h2, h3, h4, h5, h6, h7⟩ := h
  have ha := done_adv db hi
  refine ⟨t, cs, new, by simpa using hadv.trans ha, h1, h2, h3, ?_, h5, h6, h7⟩
  rw [propext (adv_nil_more ha)]; exact h4

theorem LayInv.inv {db0 : DB} {d root fs} {db : DB} (h : LayInv db0 d root fs db) : db.Inv := by
  obtain ⟨t, cs, new, hadv, _⟩ := h; exact hadv.inv

/-- `Layout`'s loop. -/
theorem layoutLoop_spec {db0 : DB} (h2 : 2 ≤ db0.maxlinks) (fuel : Nat) : ∀ (d : Nat) (root : Built) (fs : UInt64) (db : DB),
    LayInv db0 d root fs db →
    match layoutLoop fuel d root fs db with
    | .ok (root', db') => ∃ d' fs', LayInv db0 d' root' fs' db' ∧ ¬db'.More
    | .error e => Fail db0 e ∨ (e = .outOfFuel ∧ fuel ≤ db.pend.length) := by
  induction fuel with
  | zero =>
    intro d root fs db hinv
    unfold layoutLoop
    have hi := hinv.inv
    have hd := done_iff db hi
    have hdone := layInv_done hinv hi
    have hdm := done_more db hi
    cases hdn : db.done with
    | mk b db1 =>
      rw [hdn] at hd hdone hdm
      cases b with
      | true => exact ⟨d, fs, hdone, by rw [hdm]; exact hd.mp rfl⟩
      | false => exact .inr ⟨rfl, by omega⟩
  | succ fuel ih =>
    intro d root fs db hinv
    unfold layoutLoop
    have hi := hinv.inv
    have hd := done_iff db hi
    have hdone := layInv_done hinv hi
    have hdm := done_more db hi
    have ha := done_adv db hi
    cases hdn : db.done with
    | mk b db1 =>
      rw [hdn] at hd hdone hdm ha
      cases b with
      | true => exact ⟨d, fs, hdone, by rw [hdm]; exact hd.mp rfl⟩
      | false =>
        have hm : db.More := by
          by_contra hn; exact absurd (hd.mpr hn) (by simp)
        have hp1 : db.pend = db1.pend := by simpa using ha.pend
        rcases lay_step h2 hdone (hdm.mpr hm) with ⟨e, he, hf⟩ | ⟨nr, db2, he, hres⟩
        · simp only [he]; exact .inl hf
        · simp only [he]
          cases hfr : fillNodeRec d (some nr) db2 with
          | error e => rw [hfr] at hres; exact .inl hres
          | ok q =>
            obtain ⟨⟨root', fs'⟩, db'⟩ := q
            rw [hfr] at hres
            have := ih (d + 1) root' fs' db' hres.1
            simp only
            cases hl : layoutLoop fuel (d + 1) root' fs' db' with
            | ok q => rw [hl] at this; exact this
            | error e =>
              rw [hl] at this
              rcases this with h | ⟨h, h'⟩
              · exact .inl h
              · exact .inr ⟨h, by rw [hp1]; have := hres.2; simp only at this; omega⟩

/-- Everything `Layout` guarantees on success. -/
structure Result (db0 : DB) (root : Built) (db' : DB) : Prop where
  adv : ∃ new, Adv db0 db0.pend new db' ∧ ¬db'.More ∧
    ((db0.pend = [] ∧ db0.newLeafNode none TFile = .ok root.node ∧ root.pos = none ∧ new = [root]) ∨
     ∃ t d, root.node = t.toNode (db0.cfg TFile) ∧ t.chunks = db0.pend ∧ Left db0.maxlinks d t ∧
      (d ≠ 0 → db0.maxlinks ^ (d - 1) < db0.pend.length) ∧
      new.map Built.node = t.nodes (db0.cfg TFile) ∧
      refs new = (if db0.fstore then refsFrom (db0.cfg TFile).leafNode db0.offset db0.pend else []))

theorem layout_spec (db0 : DB) (hi : db0.Inv) (h2 : 2 ≤ db0.maxlinks) (fuel : Nat) :
    match layout fuel db0 with
    | .ok (root, db') => Result db0 root db'
    | .error e => Fail db0 e ∨ (e = .outOfFuel ∧ fuel < db0.pend.length) := by
  unfold layout
  have hd := done_iff db0 hi
  have hdm := done_more db0 hi
  have ha := done_adv db0 hi
  cases hdn : db0.done with
  | mk b db1 =>
    rw [hdn] at hd hdm ha
    cases b with
    | true =>
      have hnm : ¬db0.More := hd.mp rfl
      have hp : db0.pend = [] := by unfold DB.More at hnm; rw [not_not] at hnm; exact hnm.1
      simp only
      have hleaf : ∃ n, db1.newLeafNode none TFile = .ok n := by
        unfold DB.newLeafNode
        simp only [Option.getD_none, List.length_nil]
        rw [if_neg (by simp)]
        split
        · exact ⟨_, rfl⟩
        · rw [FSN.commit_of_typ _ (by rfl)]; exact ⟨_, rfl⟩
      have hleq : db1.newLeafNode none TFile = db0.newLeafNode none TFile := by
        unfold DB.newLeafNode DB.rawNode FSN.new DB.pbBuilder
        rw [ha.rawLeaves, ha.cidBuilder]
      obtain ⟨n, hn⟩ := hleaf
      simp only [hn]
      rcases add_spec db1 ⟨n, none⟩ ha.inv with ⟨db2, h3, hadd⟩ | ⟨h3, hb⟩
      · simp only [h3]
        refine ⟨[⟨n, none⟩], ?_, ?_, .inl ⟨hp, by rw [← hleq, hn], rfl, rfl⟩⟩
        · rw [hp]; simpa using ha.trans hadd
        · rw [adv_nil_more hadd, hdm]; exact hnm
      · simp only [h3]
        exact .inl (.inr (.inr ⟨rfl, fun h => hb (ha.budget h)⟩))
    | false =>
      have hm : db0.More := by
        by_contra hn; exact absurd (hd.mpr hn) (by simp)
      simp only
      have hleaf := newLeafDataNode_spec db1 TFile ha.inv (hdm.mpr hm)
      cases hres : db1.newLeafDataNode TFile with
      | error e => rw [hres] at hleaf; exact .inl (Fail.of_adv ha hleaf)
      | ok q =>
        obtain ⟨⟨root, fs⟩, db2⟩ := q
        rw [hres] at hleaf
        obtain ⟨t, cs, new, hadv, hroot, hfs, hch, hcs, ⟨c, ht⟩, hnodes, hrefs⟩ := hleaf
        have hcfg : db1.cfg TFile = db0.cfg TFile := ha.cfg TFile
        have hoff : db1.offset = db0.offset := by rw [ha.offset]; simp
        have hinv : LayInv db0 0 root fs db2 := by
          refine ⟨t, cs, new, by simpa using ha.trans hadv, by rw [hroot, hcfg], hfs, hch,
            ⟨⟨c, ht⟩, fun _ => ⟨c, ht⟩⟩, by simp, by rw [hnodes, hcfg], ?_⟩
          rw [hrefs, ha.fstore, hcfg, hoff]
        have hpl : db2.pend.length < db0.pend.length := by
          have h1 := ha.pend
          have h2 := hadv.pend
          simp only [List.nil_append] at h1
          rw [h1, h2, List.length_append]
          have := List.length_pos_iff.mpr hcs
          omega
        have hloop := layoutLoop_spec h2 fuel 0 root fs db2 hinv
        simp only
        cases hl : layoutLoop fuel 0 root fs db2 with
        | error e =>
          rw [hl] at hloop
          rcases hloop with h | ⟨h, h'⟩
          · exact .inl h
          · exact .inr ⟨h, by omega⟩
        | ok q =>
          obtain ⟨root', db3⟩ := q
          rw [hl] at hloop
          obtain ⟨d, fs', ⟨t', cs', new', hadv', hroot', -, hch', hsh, hcount, hnodes', hrefs'⟩, hnm⟩ := hloop
          have hp3 : db3.pend = [] := by unfold DB.More at hnm; rw [not_not] at hnm; exact hnm.1
          have hcs' : cs' = db0.pend := by rw [hadv'.pend, hp3]; simp
          subst hcs'
          simp only
          rcases add_spec db3 root' hadv'.inv with ⟨db4, h4, hadd⟩ | ⟨h4, hb⟩
          · simp only [h4]
            refine ⟨new' ++ [root'], by simpa using hadv'.trans hadd, by rw [adv_nil_more hadd]; exact hnm, .inr ⟨t', d, hroot', hch', hsh.1, hcount, ?_, hrefs'⟩⟩
            simpa using hnodes'
          · simp only [h4]
            exact .inl (.inr (.inr ⟨rfl, fun h => hb (hadv'.budget h)⟩))

end Balanced
end Unixfs.Import
