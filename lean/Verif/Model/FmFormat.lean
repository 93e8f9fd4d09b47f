import Verif.Model.Fm
/-
Formatting a track with the FM codec (src/track/bitstream.rs:823-868, src/track_schema/system34.rs:333-469).
-/
namespace Fox.Fm
open S34

/-- `replace` (src/bitstream_codec/fm.rs:131-133): only the cells. -/
def replace (s : Fm) (bits : List Bool) : Fm := { s with bits := bits }

/-- `set_track_markers` (src/track_schema/system34.rs:453-469) on an FM stream: the codes of the marks are those of MFM, whatever the stream. -/
def setTrackMarkers (s : Fm) : List (Marker × Nat) → Except Err Fm
  | [] => .ok s
  | m :: ms => match s.writeRawBuf (be64 m.1.code) (m.2 * 16) with
    | .error e => .error e
    | .ok s => setTrackMarkers s ms

/-- `format` (src/track/bitstream.rs:823-868) on an FM track.  `set_data_ranges` (visualisation) is not modelled. -/
def FmTrack.format (debug : Bool) (rnd : Nat → Bool) (t : FmTrack) (std : Standard) (ids : List Chsn) (pat : List Byte) (gap3 : Nat) : Except Err FmTrack :=
  match formatTrackAsBytes std t.data.len ids pat gap3 with
  | .error e => .error e
  | .ok (bytes, ms) => match setTrackMarkers (t.data.replace (encode bytes false)) ms with
    | .error e => .error e
    | .ok s => match s.scanMarkers debug with
      | .error e => .error e
      | .ok markers => match createClockMap (markers.map (·.start)) s.clockMap with
        | .error e => .error e
        | .ok cm => match scanMetadata { s with clockMap := cm } rnd markers with
          | .error e => .error e
          | .ok (items, s) => .ok { t with data := s, items := items }

end Fox.Fm
