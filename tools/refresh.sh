#!/bin/sh
# Regenerate lean/Verif.lean (imports of every module) and MANIFEST.json.
cd "$(dirname "$0")/.."
(cd lean && find Verif -name '*.lean' | LC_ALL=C sort | sed 's/\.lean$//; s#/#.#g; s/^/import /') > lean/Verif.lean
python3 tools/mkmanifest.py
