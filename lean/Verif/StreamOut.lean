import Verif.JRound
/-!
# The JPEG writer on data that is still being parsed

`SerializeJpeg`, `SerializeSection`, `DoEncodeScan` (c/dec/jpeg_data_writer.cc:697-1093) look at the parser at every call: the writer starts once the
DC or the AC section has begun, writes as many rows of a scan as there are, and stops there until the next call.  `JFile.lean` has the same
functions for data that is complete.
-/

namespace Brunsli

/-- What the writer sees of the parser (c/dec/state.h, c/dec/state_internal.h): whether the stage is `DONE`, the tags met at top level (`tags_met`), `*jpg` as it is,
`original_jpg`, and `ac_dc.next_mcu_y`. -/
structure View where
  done : Bool
  met : List Nat
  jpg : JpegData
  original : Option (List Nat)
  row : Nat

/-- `can_start_serialization` (c/dec/jpeg_data_writer.cc:1005-1012). -/
def View.canStart (v : View) : Bool := v.done || v.met.contains 7 || v.met.contains 8

/-- `EncodeScanState` in the stage `BODY` (c/dec/serialization_state.h:58-83): the variables, the bit writer and `mcu_y`. -/
structure WScan where
  ws : WS
  bw : BW
  y : Nat

/-- `SerializationState` without stage and queue.  `broken` is set once the behaviour is undefined. -/
structure WJS where
  base : WJ
  scan : Option WScan
  broken : Bool

/-- The MCUs of some rows. -/
def mcuRange (dims : Nat → CompDim) (comps : List ScanComp) (from_ to_ cols : Nat) : List (List Visit) :=
  (List.range' from_ (to_ - from_)).flatMap fun my => (List.range cols).map fun mx => mcuVisits dims comps my mx

/-- `v_group` (c/dec/jpeg_data_writer.cc:757). -/
def vGroup (jpg : JpegData) (s : ScanInfo) : Nat :=
  if 1 < s.comps.length then 1 else (dimsOf jpg.components ((s.comps.map ScanComp.compIdx).headD 0)).v

/-- `want_ac` (c/dec/jpeg_data_writer.cc:767). -/
def wantAc (P : SP) : Bool := P.ss != 0 || P.se != 0

/-- `last_mcu_y` (c/dec/jpeg_data_writer.cc:766-783); `none` if the scan has to wait for AC data. -/
def lastRow (v : View) (prog : Bool) (s : ScanInfo) : Option Nat :=
  let hasAc := v.done || v.met.contains 8
  if wantAc (scanParams prog s) && !hasAc then none
  else if (if wantAc (scanParams prog s) then v.done else hasAc) then some (writerMcus v.jpg s).1
  else some (v.row * vGroup v.jpg s)

/-- The restart interval in use (c/dec/jpeg_data_writer.cc:703-704). -/
def driOf (jpg : JpegData) (a : WJ) : Nat := if a.dri then jpg.restartInterval else 0

/-- A table that does not exist (c/dec/jpeg_data_writer.cc:801-802), or a block that does not (:820). -/
def outOfRange (jpg : JpegData) (s : ScanInfo) (mcus : List (List Visit)) : Bool :=
  (s.comps.any fun c => 4 ≤ c.dcTbl || 4 ≤ c.acTbl) ||
    mcus.flatten.any fun v => decide (((jpg.components[v.comp]?).map fun c => c.coeffs.length).getD 0 < 64 * v.blk + 64)

/-- The stage `HEAD` (c/dec/jpeg_data_writer.cc:723-739). -/
def scanHead (jpg : JpegData) (s : ScanInfo) (a : WJ) : Option WScan → Run WScan
  | some w => .ok w
  | none => (encodeSOS jpg s).bind fun sos => .ok ⟨WS.start (driOf jpg a) s.resetPoints s.extraZeroRuns, BW.init [sos], 0⟩

/-- The end of a scan (c/dec/jpeg_data_writer.cc:846-854): the chunks and the padding bits left. -/
def scanEnd (T : HSlot → CodeTable) (ws : WS) (bw : BW) (pads : Pads) : Run (List (List Nat) × Pads) :=
  (bw.acts pads (ws.cs.flush.1.map (.req ·) |>.map (WAct.toAct T))).bind fun (bw, pads) =>
    (bw.jump pads).bind fun (bw, pads) => if bw.healthy then .ok (bw.finish, pads) else .fail

/-- What `DoEncodeScan` leaves: the padding bits, the scan if it is not finished, and the chunks. -/
structure ScanOut where
  pads : Pads
  scan : Option WScan
  chunks : List (List Nat)

/-- The scan stops; the chunks go to the queue. -/
def WScan.pause (w : WScan) (pads : Pads) : ScanOut := ⟨pads, some { w with bw := { w.bw with queue := [] } }, w.bw.queue⟩

/-- The stage `BODY` (c/dec/jpeg_data_writer.cc:740-854). -/
def scanRows (v : View) (s : ScanInfo) (a : WJ) (w : WScan) : Run ScanOut :=
  match lastRow v a.prog s with
  | none => .ok (w.pause a.pads)
  | some last =>
    let n := writerMcus v.jpg s
    let mcus := mcuRange (dimsOf v.jpg.components) s.comps w.y last n.2
    if outOfRange v.jpg s mcus then .ub
    else match writeMcus a.prog (scanParams a.prog s) (driOf v.jpg a) v.jpg.coefs mcus w.ws with
      | none => .fail
      | some (as, ws) =>
        (w.bw.acts a.pads (as.map (WAct.toAct a.T))).bind fun (bw, pads) =>
          if max w.y last < n.1 then
            if bw.healthy then .ok (WScan.pause ⟨ws, bw, max w.y last⟩ pads) else .fail
          else (scanEnd a.T ws bw pads).bind fun (cs, pads) => .ok ⟨pads, none, cs⟩

/-- `DoEncodeScan` (c/dec/jpeg_data_writer.cc:697-854). -/
def streamScan (v : View) (s : ScanInfo) (a : WJ) (st : Option WScan) : Run ScanOut := (scanHead v.jpg s a st).bind (scanRows v s a)

/-- `SerializeSection` (c/dec/jpeg_data_writer.cc:876-943): the variables, the chunks and whether the segment is complete. -/
def streamMarker (v : View) (a : WJS) (m : Nat) : Run (WJS × List (List Nat) × Bool) :=
  if m = 0xDA then
    match v.jpg.scans[a.base.scan]? with
    | none => .ub
    | some s => (streamScan v s a.base a.scan).bind fun o =>
        .ok (⟨{ a.base with pads := o.pads, scan := if o.scan.isSome then a.base.scan else a.base.scan + 1 }, o.scan, a.broken⟩, o.chunks, o.scan.isNone)
  else (writeMarker v.jpg a.base m).bind fun (cs, b) => .ok ({ a with base := b }, cs, true)

/-- The writer as an instance of the state machine around the output queue. -/
def streamApi : SerApi View WJS where
  canStart := View.canStart
  version := fun v => v.jpg.version
  original := View.original
  markers := fun v => v.jpg.markerOrder
  prepared := fun v a => { a with base := a.base.prepared v.jpg }
  marker := fun v a m =>
    match streamMarker v a m with
    | .ok (a, cs, fin) => (a, cs, if fin then .done else .needsInput)
    | .fail => (a, [], .error)
    | .ub => ({ a with broken := true }, [], .error)

/-- The state before `SerializeJpeg`. -/
def WJS.init (T : HSlot → CodeTable) : WJS := ⟨WJ.init T, none, false⟩

/-- The parser after it has finished with an image. -/
def View.complete (J : JpegData) : View := ⟨true, [], J, none, 0⟩

/-! ## What does not depend on the coefficients -/

/-- Without coefficients. -/
def Component.bare (c : Component) : Component := { c with coeffs := [] }

/-- Without coefficients. -/
def JpegData.bare (j : JpegData) : JpegData := { j with components := j.components.map Component.bare }

theorem bare_get (j : JpegData) (c : Nat) : j.bare.components[c]? = (j.components[c]?).map Component.bare := by
  simp only [JpegData.bare, List.getElem?_map]

theorem dimsOf_bare (j : JpegData) : dimsOf j.bare.components = dimsOf j.components := by
  funext c
  unfold dimsOf
  rw [bare_get]
  cases j.components[c]? <;> rfl

theorem maxV_bare (j : JpegData) : maxV j.bare.components = maxV j.components := by
  simp only [maxV, JpegData.bare, List.map_map]
  rfl

theorem maxH_bare (j : JpegData) : maxH j.bare.components = maxH j.components := by
  simp only [maxH, JpegData.bare, List.map_map]
  rfl

theorem writerMcus_bare (j : JpegData) (s : ScanInfo) : writerMcus j.bare s = writerMcus j s := by
  simp only [writerMcus, dimsOf_bare, maxV_bare, maxH_bare]
  rfl

theorem vGroup_bare (j : JpegData) (s : ScanInfo) : vGroup j.bare s = vGroup j s := by
  simp only [vGroup, dimsOf_bare]

theorem sosBytes_bare (cs : List Component) (ss : List ScanComp) : sosBytes (cs.map Component.bare) ss = sosBytes cs ss := by
  induction ss with
  | nil => rfl
  | cons s ss ih =>
    rw [sosBytes, sosBytes, ih, List.getElem?_map]
    cases cs[s.compIdx]? <;> rfl

theorem encodeSOS_bare (j : JpegData) (s : ScanInfo) : encodeSOS j.bare s = encodeSOS j s := by
  simp only [encodeSOS, JpegData.bare, sosBytes_bare]

theorem sofBytes_bare (q : List QuantTable) (cs : List Component) : sofBytes q (cs.map Component.bare) = sofBytes q cs := by
  induction cs with
  | nil => rfl
  | cons c cs ih =>
    rw [List.map_cons, sofBytes, sofBytes, ih]
    rfl

theorem encodeSOF_bare (j : JpegData) (m : Nat) : encodeSOF j.bare m = encodeSOF j m := by
  simp only [encodeSOF, JpegData.bare, sofBytes_bare, List.length_map]

theorem writeMarker_bare (j : JpegData) (ws : WJ) {m : Nat} (hm : m ≠ 0xDA) : writeMarker j.bare ws m = writeMarker j ws m := by
  unfold writeMarker
  rw [encodeSOF_bare, if_neg hm, if_neg hm]
  rfl

end Brunsli
