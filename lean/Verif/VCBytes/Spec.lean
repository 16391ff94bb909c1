import Verif.VCBytes.Model
/-!
# What a well-formed view-change message is
-/
namespace Verif.VCBytes
open Verif.Bytes

/-- an element that fits the wire format: 32-byte digest, 64-bit fields, 16-bit signature length -/
structure Elem.Fits (e : Elem) : Prop where
  digest : e.digest.length = 32
  seq : -2 ^ 63 ≤ e.seq ∧ e.seq < 2 ^ 63
  ov : -2 ^ 63 ≤ e.originView ∧ e.originView < 2 ^ 63
  cv : -2 ^ 63 ≤ e.certView ∧ e.certView < 2 ^ 63
  sig : e.sig.length < 2 ^ 16
  nocert : e.flag = 0 → e.certView = 0 ∧ e.sig = []

/-- a legal element of a message for view `newView` from a replica whose last stable sequence number is `lastStable`
(the English of C06) -/
structure Elem.Legal (lastStable newView : Int) (e : Elem) : Prop where
  above : lastStable < e.seq
  inWindow : e.seq ≤ lastStable + 300
  origin : e.originView < newView
  cert : e.flag ≠ 0 → e.certView ≤ e.originView ∧ e.sig ≠ []

/-- legal list of elements: legal elements, strictly increasing sequence numbers -/
structure LegalList (lastStable newView : Int) (es : List Elem) : Prop where
  legal : ∀ e ∈ es, e.Legal lastStable newView
  sorted : es.Pairwise (fun a b => a.seq < b.seq)

/-- concatenated wire image of elements -/
def encodeAll (es : List Elem) : Bytes := (es.map encodeElem).flatten

/-- size/value list of complaints, ViewChangeMsg.cpp:114-118 -/
def encodeComplaints (cs : List Bytes) : Bytes := (cs.map (fun c => leEncode 4 c.length ++ c)).flatten

/-- A well-formed message: header, span context, legal elements, valid signature over all of these, complaints. -/
structure WellFormed (c : Cfg) (buf : Bytes) (h : Hdr) (span : Bytes) (es : List Elem) (sg : Bytes) (cs : List Bytes) :
    Prop where
  layout : buf = encodeHdr h ++ span ++ encodeAll es ++ sg ++ encodeComplaints cs
  spanLen : span.length = h.spanSize
  fits : ∀ e ∈ es, e.Fits
  legal : LegalList h.lastStable h.newView es
  count : es.length = h.numElements
  loc : h.locAfterLast = if es = [] then 0 else hdrSize + span.length + (encodeAll es).length
  replica : c.isReplica h.genId = true ∧ h.genId ≠ c.myId
  epoch : h.epoch = c.epoch
  sigLen : sg.length = c.sigLen h.genId
  sigOk : c.verify h.genId (encodeHdr h ++ span ++ encodeAll es) sg = true
  complaints : ∀ x ∈ cs, complaintHdr < x.length ∧ x.length < 2 ^ 32
  ccount : cs.length = h.numComplaints

end Verif.VCBytes
