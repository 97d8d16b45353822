#!/bin/sh
# Regenerates lean/Verif.lean with all modules.
cd /verif/lean && find Verif -name '*.lean' | sort | sed 's|/|.|g; s|\.lean$||; s|^|import |' > Verif.lean
